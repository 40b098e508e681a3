body = r'''# Formal model of typelib — design

The deliverable is a Lean 4 model (`lean/Verif`) of the C++ code of typelib (`/repo`), with theorems about it.
`properties.jsonl` lists the properties, `MANIFEST.json` the theorems that settle each one (theorems are named
`Cnn_…` after the property), `seeded/LOG.jsonl` the mutation tests of the theorems.

## 1. Trusted base

* **Lean 4.33.0's kernel.** No axioms of ours. Every theorem in the manifest depends at most on `propext`,
  `Classical.choice` and `Quot.sound` (checked with `#print axioms` for all of them). No compiled evaluation:
  concrete examples are closed by `rfl`, `decide` or `decide +kernel`, all of them checked by the kernel. Mathlib is not
  used by the statements.
* **The reading of the C++ code.** The code is not compiled or run. Each definition of the model cites the
  lines of `/repo` it models and says what it simplifies. That reading is trusted.
* **The semantics given to the runtime.** `std::vector`, `std::string`, `std::map`, `std::multimap`, `std::set`,
  `std::list`, `memcpy`, `memcmp`, `atoi`, iostreams and boost::lexical_cast behave as documented. Undefined behaviour
  is an explicit outcome (`Res.ub`), an exception too (`Res.exn`, tagged with the class of exception), and exhausted
  fuel is a third one (`Res.fuel`), which no theorem counts as success.
* **The machine.** `size_t` has 64 bits and wraps; `int` has 32 bits and its overflow is undefined; bytes are octets; the
  host is little-endian; the address of a container object is never one of the five opcode values 0..4 of the layout
  bytecode (the code itself relies on it).
* **libxml2** is not modelled function by function: `Verif.Xml` is a small specification of what it reads and C38 is
  relative to it.

## 2. Modelling conventions

* `Str = List Char` is `std::string`. Where the code compares characters with `<`, the order is a parameter
  `key : Char → Int`, injective, so that results hold for signed and unsigned `char`.
* Iterators into a bytecode vector are list suffixes (`[]` is `end()`; reading it is `ub`).
* A buffer is a list of `Cell`s. A container object in memory is a `vec`/`str` cell followed by `tail` cells:
  handling it as plain bytes, leaving the buffer, using destroyed memory or overwriting a live container is `ub`. So
  "the outcome is a normal return" contains memory safety and the absence of leaks.
* Loops and recursive functions of the C++ code are recursive Lean functions, with fuel when the recursion is not
  structural; the theorems show that an explicit amount of fuel is enough (termination is proved, not assumed), or that
  none is (where the code diverges).
* Types are trees (`Layout.Ty`) for layouts, values and byte swapping: a type that contains itself by value through
  containers has no finite layout. They are nodes of a graph (`Graph.Heap`: object identity ↦ name, size, kind) for
  everything that depends on identity or where cycles matter (registries, comparison, merge, resize, export, visitors).
* Histories are lists of operations, or an inductive predicate `Reachable` closed under the operations of the API;
  properties "in every state" are theorems about all of them.
* Exceptions leave the state that was reached: the model returns the state together with the outcome whenever a partial
  effect can be observed.

## 3. Plan and state per property

'''
plan = {
'C01':('`NameModel.nameSort`','strict total order by case analysis on the first difference; contiguity of the members of a namespace in any sorted list'),
'C02':('`Registry.importNamespace/setDefaultNamespace` on the two tables','invariant over histories, then computation of the table after the call'),
'C03':('`splitTypename` and the join','induction on components'),
'C04':('`isInNamespace`, `getRelativeName`','prefix reasoning; canonical names by components'),
'C05':('`isValidTypename` as the C++ loop with positions','completeness: induction on a grammar of names (`NTail`, `NArgs`); soundness: accepting runs (`NameScan`) inverted on three classes of names; outside of them the code accepts garbage (witnesses)'),
'C06':('`getMinimalPathTo`','induction on component lists'),
'C07':('`Layout.rawLayout` (visitor pushing words)','translation of bytecode to trees, one item per byte (`LayoutTree`, `LayoutFlat`), induction on types'),
'C08':('`simplify`, `simplifyInit`, literally as loops on words','the expansion of a simplified program is that of the program'),
'C09':('`validate`, `skipBlock`','induction on the tree behind the program'),
'C10':('`Value.dump`, `Value.load`','refinement to an abstract codec of abstract values (`AV`), induction on types'),
'C11':('`getDumpSize` (counting stream)','same refinement; modulo 2^64'),
'C12':('fixed buffer stream','invariant of the stream, for any program'),
'C13':('`load` on arbitrary bytes','same refinement with arbitrary input; the excluded inputs are the multiplications that wrap'),
'C14':('`load` on a prefix / with extra bytes','prefix-code property of the codec'),
'C15':('`copy`','refinement to equality of abstract values'),
'C16':('`compare`','refinement; equality of abstract values'),
'C17':('`init`, `destroy`','induction on types'),
'C18':('`zero`','induction on types'),
'C19':('`Vector` (containers.cc): resize, push, erase, delete_if, clear, set/getElement','refinement of each call to a list operation, histories of calls'),
'C20':('`Endian`: compiled swap program and its interpreter, integer swaps as bit operations','structure of compiled programs (`EndianOps`), induction on types'),
'C21':('`Registry`: `m_global`, `m_current`, type heap','invariant `Inv` of all reachable registries, exact effect of each call'),
'C22':('same','the current table is a function of the registrations in three classes of histories; counterexamples for the rest'),
'C23':('`remove`, `reverseDepends`','the worklist computes the closure, for cyclic graphs as well'),
'C24':('same','invariant'),
'C25':('`alias`, `modifiedDependencyAliases`','termination of the mutual recursion by a measure on derivation depth; coverage invariant `Cov`'),
'C26':('`TypeCompare.doCompare` with its recursion stack','the stack is a partial bisimulation; exact characterisation of the answer; counting argument for termination'),
'C27':('same','from C26, for types without structural duplicates'),
'C28':('same, with `equality = false`','induction on paths into the types'),
'C29':('`Merge.mergeF`, `typeMerge`, `tryMerge`, `doMerge`','invariant of the merge stack (`MergeInv`), specification of one merge by induction on the types not yet copied, with a list of compounds whose copy is under construction (recursive types); `MergeConflict`: invariant of the heap, registry and stack kept by every step without any agreement between the registries, for the conflict and no-damage theorems'),
'C30':('`minimal`, `minimal(auto_types)`','from C29, the needed names as an inductive closure'),
'C31':('`Registry::isSame` with iterator positions','the loop reads past the end; the answers it gives before are right'),
'C32':('`Resize.resize`, `do_resize` per class, map of sizes','ranking of dependencies, the sizes are those of a specification `Sizing`'),
'C33':('`Exporter.save` worklist; what a concrete exporter writes is an oracle (`wrote`)','loop invariant and decreasing measure'),
'C34':('`MetaData` as a sorted map of sorted sets (`StdMap`)','refinement to a function key → set, histories'),
'C35':('`Enum::add`, `getNextValue`, lookups','invariant over histories of calls'),
'C36':('`Compound::addField`, padding, field order','invariant over histories; machine integers explicit'),
'C37':('`TypeBuilder`: parser of declarators, `build`, `getOrAdd`','induction on the list of modifiers; effect on every reachable registry with honest derived names'),
'C38':('`Tlb`: exporter to text, importer from XML trees; `Xml`: specification of parsing','text → tree → registry in seven steps (`TlbText` … `TlbRound`), simulation between the two registries'),
'C39':('`Csv`: header and line visitors; the text of a cell is a parameter','induction on fuel/types'),
'C40':('`Idl`: events of the exporter with its namespace stack','invariant of the open modules; scanner of events as specification'),
'C41':('`Singleton`: server, use counts, interleavings of threads','invariant of reachable states; layered use relation'),
'C42':('`Visitor`: the generic value visitor on a memory','induction; leaves given by paths'),
'C43':('`ConfigSet`: multimaps of values and children','histories; ownership tree for deletion'),
'C44':('`RubyMemory`: table of zones, root counts','invariant over histories that follow a contract (`Step`)'),
'C45':('`CxxNames`: string rewriting in both directions','names as token sequences; computation of both conversions'),
'C46':('`load` into a destination that already holds a value','refinement; counterexamples for empty containers'),
'C48':('`Idl`: names, declarations and definitions as text','relation `Ref` between types and IDL names, induction on it; invariant of the reserved names over histories'),
'C49':('`ValueCast`: the casting visitor on the visitor of C42','`visit_inv`: what the methods of a visitor preserve on the leaves the visit preserves, also when stopped'),
'C51':('`Merge.copySourceIDs`, the entries during `merge`','the source of one entry as a fold over the entries of the other registry; entries only grow during a merge'),
'C52':('`RubyConvert`: memory as bytes, the Ruby macros `NUM2INT`, `NUM2UINT`, `NUM2LL`, `INT2FIX`, getters and setters','arithmetic on little endian two\'s complement; specification by the value of each byte (`Holds`, `LowBytes`, `SameOutside`)'),
'C53':('`RubyStrings`: `string_buffer_get`, `value_to_string`, `value_from_string`, the array setter','loop invariant for the real size; specification `HoldsStr`'),
'C54':('`RubyArray`: `array_get`, `array_element`, `array_each`, `raw_get` with its cache','invariant of the cache over all histories'),
'C55':('`RubyCache`: parts as paths, buffers of vectors as a map, the caches and `handle_invalidation`','invariant over all histories: objects that are not invalidated are in the cache at their address; induction over the order of the containers'),
'C58':('`RegistryIter`: iterators as positions in the sorted table, `lower_bound`, the loops with explicit reads past the end','the positions cut out the filter of the table (prefixes are convex for `nameSort`), then the table invariant of C21'),
'C59':('`RubyRegistry`: deletions as a list with double deletion undefined, the wrapper map with owned flags and classes','invariant over all histories: owned wrappers are exactly the types taken out, and these are not registered'),
'C60':('`RubyNames`: `template_tokenizer`, `parse_template`, `collect_template_arguments`, `cxx_to_typelib`, `typelib_to_cxx`, `split_first_namespace`, `split_last_namespace`','C++ names as trees (`Name`, `Args`), every way to write one as a relation (`Written`); induction on the tree for each function'),
'C61':('`RubyBuilder`: `CompoundBuilder#build`, `EnumBuilder#build`, `registry_create_*`, `registry_alias`; a C++ exception that is not caught by the extension is undefined behaviour','specification of offsets and values by `Placed` and `Numbered`; the registration by `addName_spec`, the size by C36, the symbols by C35'),
'C62':('`RubyOptions`: `format_options`, `setup_configset_from_option_array` on the sorted multimaps of `ConfigSet`; reading a string as an array is undefined','the relation `Matches` between configuration and options, by recursion on the options'),
'C63':('`RubyAccessor`: `traverse_and_find_in_type`, `Path#resolve`, `Accessor#each` on type graphs and value trees whose nodes are the Ruby objects; the order of paths of equal size is arbitrary','induction on the traversal: the objects reached are a permutation of the wanted parts (the loops on paths and on elements are exchanged)'),
'C64':('`RubyDeps`: the memo of each class as a map, the recursion with its partial results visible to inner calls','soundness by invariant; completeness of a first call: everything visited, and what it depends on, ends in the set of the caller; without cycles, all memos stay right'),
'C65':('`RubyBytes`: `of_size` (dump of the element, repeated, loaded into a new container), conversion of strings (`pack("QA#{n}")`), packed arrays','the buffer is the dump of the container that holds n copies, then C10; for plain padded elements the buffer is too short for every n > 0'),
'C66':('the importer functions over an AST of clang declarations (the answers the code asks clang for), on the model of the registry with its automatic aliases; clang itself, messages and metadata are not modelled','one invariant (every registered name that denotes a C++ type is registered for a type that describes it, primary names included) kept by each function, induction on the depth of the recursion; refusals by a separate induction; termination from a rank on types'),
'C67':('objects of compounds with, per field, the C++ value and the remembered Ruby object or part; accessors, get/set, raw access, apply/invalidate of changes, dump, load, copy, dup; conversions are parameters','simulation: with the invariant that all that is remembered is reached through the instance variables, each action commutes with the same action on a single copy of the value; induction on the program, structural induction on objects'),
'C68':('RubyCustom.lean: RubyMappingCustomization (four hashes, add, find_all), the class a type gets from type_wrap and subclass_initialize, histories of declarations and uses; blocks and modules are opaque numbers, regexps any predicate on names','RubyCustomProps/Thms.lean: invariant over histories (the mapping holds the declarations, classes are closed under parts and made from the declarations at the first use), accessibility of the containment relation'),
'C69':('RubySimple.lean: toSimple (to_simple_value of every kind of type, with special_float_values), fromRuby (Typelib.from_ruby on plain objects: conversions of numbers through the C52 model, characters, booleans, enumerations, strings, arrays, containers through do_push, compounds from hashes and arrays). Types and values are trees; floats are IEEE bits; the encoding, float/double conversions and the contents of new memory are parameters.','RubySimpleProps.lean (Ok, Sound, Faithful; both directions by induction on the type), RubySimpleThms.lean (round trip iff, injectivity, totality, validity, hashes, JSON), RubySimpleCex.lean.'),
'C70':('RubyExport.lean: registry_export.rb as a state machine (objects with prefix, filter block and cache; the regexp with flag `o` is a variable of the process) over the registry of C05 and the enumeration of C58.','RubyExportProps.lean: invariant over histories of exports, calls on any object and growth of the registry (prefix of a type = its name, cache entries = what the registry says now); induction on the path. Counterexamples by running the model (RubyExportCex.lean).'),
'C71':('Gccxml.lean: resolve_type_definition and load, function by function, over the nodes of the XML as data (the attributes the code reads), on the model of the registry with its automatic aliases (C05), of the Ruby builders (C61) and of the parsing of template names (C60). The XML reader, the documentation and metadata, and the final filter of the registry are not modelled.','GccxmlSpec.lean: what nodes and names mean (Meaning), when a type describes a C++ type (Faithful), the reasons for not importing (Refused, Gone). One invariant on the registry and on the memory of the loader kept by each function (GccxmlWorld, GccxmlProps, GccxmlRecord), induction on the depth of the recursion (GccxmlTheorems). GccxmlNames builds a meaning of all names, GccxmlExample a program that meets all hypotheses; counterexamples by running the model (GccxmlCex.lean).'),
'C72':('RubyCast.lean: `rbCopy`, `rbCompare`, `rbCast`, `rbDup` on memory zones, using the model of canCastTo (TypeCompare) and of copy/compare through layouts (Value); CastTree.lean, CastOps.lean: layouts of types that differ in trailing padding','The layout of the source without its last padding describes the same bytes of the target (induction on both types at once: `tcast_core`; `layL_len`: simplification drops all trailing skips); then the walks of copy and compare are run on that common part. `Same` is the specification of equal contents across two types.'),
'C73':('vectors of C19 with the identity of the buffer and the table of element objects; the calls of container_type.rb and specialized_types.cc; arguments are other values, own elements (addresses in the buffer, or copies for numbers) or refused objects; strings as lists of bytes','refinement of a relational specification on lists of element values (Sem, Run): one lemma per call on top of the C19 theorems, then induction on the history; an invariant (Clean) on the table of objects; each by induction on the remaining elements with a block that is itself a history'),
'C74':('`ParallelLoad`: a transition system with one step per queue operation, job server operation, tool call and thread end, for the calling thread, k parsing threads and the registry thread; outcomes of tools, conversions and merges are chosen by the environment; the token pool may be shared with other processes. `ParallelLoadProps` also models the path without threads.','Inductive invariants over all executions (what each thread holds plus what the history shows equals what was required; where the end marker is; what holds at each point of `load`), a strictly decreasing weight for termination, a case analysis for the absence of deadlock. Statements talk about the history of tool calls, conversions, merges and tokens.'),
'C75':('Streams.lean: the write methods of the stream classes over an oracle for the operating system (each write may fail or take any number of bytes), `dump` into any stream, `load` from any position of an input.','The generic dump triple of C10–C12 (`dump_walk`) is instantiated with a stream invariant per class; loading from the middle of a stream uses `load_tri` with a non-empty past and future; histories by induction on the list of values.'),
'C76':('Docs.lean: lines of a file as character lists, the regular expressions as functions, `startLine`, `scan`, `format`, `metaOf`, `describe`; the specification (marks, texts, documented declarations) is independent of them. Not modelled: invalid UTF-8 (Ruby raises), the parsing of `file:line` (a colon in the path of the file, or a missing line, raises).','Inductions on the window of comment lines, a lemma about removing from both ends for `strip` and for blank lines, minimum of the margins, induction for the removal of `*/`; metadata through C34.'),
'C77':('`LoadFilter.lean`: the two final loops of `GCCXMLLoader#load` over the models of `Registry::minimal`, `Registry::merge` and `Registry::alias` of C29, C30 and C06; `Registry.new` is empty (no plugin of the repository defines types); the fuel of the recursive functions is computed from the heap and proved sufficient','an invariant of the first loop (the result has no alias, is closed, and consists of copies of wanted types), each step by the specifications of `minimal` and `merge`; the second loop by a simulation of the result by the source, which also shows that no alias can conflict'),
'C78':('MergeMeta: the metadata objects of all types and fields as a store; mergeMetaData, copySourceIDs with the source_id metadata, the virtual mergeMetaData of types and compounds; the metadata of created objects is described by a relation (empty, or copied from the type of the same name by the copy constructors)','loops by induction: what a type holds after the loop is what it held, plus what the source types of the same names hold in corresponding places; sources are untouched because they are disjoint from the destination (C29); combined with the results on merge and minimal'),
'C79':('RubyMeta: every method of the Ruby class MetaData on top of the model of the C++ class (C34); arguments are strings or other objects, strings are cut at NUL bytes when they become C strings','induction over the history of calls, using the refinement result C34'),
'C80':('TypeDisplayVisitor on top of TypeVisitor (typedisplay.cc, typevisitor.cc) and Registry::dump (registry.cc:484-530) as functions to texts; specification: Shown (what is told of a type), Items (what is told of a registry)','the text is a prefix code: by induction on the description, a text followed by anything that may follow it determines both; the display ends by induction on a rank that decreases along fields and array elements'),
'C81':('Registry#import, handler_for, guess_type (registry.rb), CXX.load/loader/preprocess (cxx.rb), the load and preprocess methods of GCCXMLLoader, CastXMLLoader and CLangLoader (gccxml.rb, clang.rb) on keyword arguments as association lists; programs are an oracle from command lines to outputs. Not modelled: what is done with the outputs (C71, C74, C76, C77), Tempfile contents','lookups of keys are followed through the ** of each method; induction on the list of files'),
'C82':('RubyLayout.lean: `layout_to_ruby` and `init_layout_to_ruby` on the bytecode of `layoutOf`, options with defaults, `LONG2NUM`, `compatible_with_memcpy?`; container classes stand for their types.','Bytecode trees are translated word for word (layoutToRuby_enc, initToRuby_enc); all numbers are below 2^63 if all parts of the type are (Nums, by the meaning of the operations and the dimensions of the type); then C08 on what is read; an inverse gives injectivity.'),
'C83':('RubyHash.lean: `to_h` of each class of types over the graph of types, hashes with insertion order, `offset_of` with encodings of names, `INT2FIX`.','Induction over the recursion depth (toH_tells); termination by the chain of distinct types of a non-recursive type; equal hashes by inversion of the specification against itself, equal definitions by induction over `Alike`.'),
'C84':('ClangMeta.lean: the four functions of HandleMetaData.cpp on what clang tells of a declaration (comment tree, place, bases, printed names), the order of calls for each kind of type; `set_source_file` with the lines of the file; `location.split(":")`.','Each function adds a set of values (Adds), composed over the calls; comments by induction over blocks and inline parts; lines by induction on the line number.'),
'C85':('the class as a type (the model of C35) with the remembered hash; a history is a list of calls, additions and arbitrary functions applied to the returned hash','induction over histories from the end: the type only depends on the additions, and the remembered hash is the table of the symbols at the first call'),
'C86':('the two modules a compound class includes as lists of definitions (the last one counts), the filter, and the lookup of a method through conversion module, declared modules, access module and superclass','each accessor name determines field and kind if the names are Separate; membership of definitions in the modules, no induction over the class'),
'C87':('the three C++ functions on the value model, with the options as given and what becomes of C++ exceptions','induction over the layout of the type (ValuePack: Packed, Frame), for any merge and trailing option; vectors via their element blocks'),
'C88':('the Ruby methods on the model of splitTypename, getNamespace and getTypename (C03), with nil and the replacement of slashes','C03 for the parts, structural induction over names and their arguments (trees of C60) for full_name'),
'C89':('the two operations over the Ruby objects (types, root classes with their guard types, derived classes, others) on the model of Type::isSame and canCastTo (C26)','case analysis over the objects; C26, C27, C28 for the types; matchings of null types for the root classes'),
'C90':('the state of the process (loaded features, the two class variables) and the function over worlds that say what a call finds; nested calls from plugins are not modelled','a specification of one loop (fresh files up to the first that raises), composed for the two loops; an invariant over histories'),
'C91':('the conversion of the hash into the std::map (names, NUM2INT, conversion to size_t, map::insert), on top of the model of Registry::resize (C32)','induction over the hash for the map and its order; C32 transported along equality of the entries'),
'C92':('Registry#add as minimal(name) with the aliases followed by merge, on top of the models of C29 and C30','the minimal registry is shown to meet the conditions of the merge (its types are fresh copies), then the specifications are composed'),
'C57':('`LayoutGraph`: `MemLayout::Visitor` on the graph of type objects, `Vector::getElementLayout`','the tree of a type is defined by unfolding; a type has one iff it does not contain itself (pigeonhole on the path of containing types); the visit of the graph equals the visit of the tree'),
'C56':('`Plugins`: the tables of the manager, the search path loop, the destructor; libraries and directories are parameters','induction on the sequence of additions (last one first); induction on the entries of the path'),
'C50':('`StdTypes`: the calls of addStandardTypes, in order, on the model of the registry, sizes of the C++ types as a parameter','invariant `Done` over the calls; the meaning of a spelling is specified from its keywords as in the C++ standard'),
'C47':('entries of the registry tables','exact effect per call, histories'),
}

import json
m={c['property']:c for c in json.load(open('/verif/MANIFEST.json'))['claims']}
try:
    exec(open('/verif/tools/design_extra.py').read())
except FileNotFoundError: pass
body += '| property | state | what is modelled | how it is proved |\n|---|---|---|---|\n'
props=[json.loads(l) for l in open('/verif/properties.jsonl')]
for p in props:
    a,b=plan[p['id']]
    body += f"| {p['id']} {p['title']} | {m[p['id']]['status']} | {a} | {b} |\n"
body += r'''
"partial" means: the full statement of `properties.jsonl` is false of the code (or, where `MANIFEST.json` says so, not
proved), the theorems with suffix `_partial` state the conditions under which it holds, and `…_counterexample` theorems
exhibit a concrete case where the code violates it without them. The side conditions are described below.

### Conditions that appear in statements

* *Registry.* `Reachable key H R`: the registry `R` over the heap `H` results from any sequence of operations (`add`,
  `alias`, `removeAlias`, `clearAliases`, `remove`, `setDefaultNamespace`, `importNamespace`), allocations of new types
  and changes to types that keep names and dependencies. `OkOp` asks that names given to `add`/`alias` are absolute and
  namespaces are made of identifiers; `C21_side_conditions_needed` shows what happens otherwise.
* *Comparison.* `WF`: dependencies are allocated types, enum symbols are kept in order. Any graph otherwise.
* *Merge.* `Source`/`Copyable`: the copied types are made of the registry's own types and no array or string is part of its own elements.
  `Dest`: the destination agrees on the definitions of types it shares by name and no alias hides a source name.
  `FromAlias`, `DepStar`, `Needed` are the closures used to say what `minimal` must contain.
* *Resize.* `Sizing` is the specification: the sizes that the request implies. `Ranked`: no type depends on itself except
  through a type whose size is given; `Sane`: definitions are closed, arrays have the size of their elements; `NoCancel`:
  no compound has fields that grow and others that shrink by the same total.
* *TypeBuilder.* `Honest`: a registered name that ends in `[n]` or `*` denotes that array or pointer.
* *Visitor.* `NoOverlap`: fields of a compound do not overlap; `Passable`: nothing stops the visit (null types, numbers of
  an unsupported size, containers of empty elements, null pointers).
* *TLB.* `Clean`: strings that can be written with the escaping the exporter does; `Storable`/`Exportable`: types whose
  attributes the format keeps and persistence as `Registry::add` decides it; `Within`: what the destination knows before
  the import is known by the exported registry with the same definition.
* *Ruby memory.* `Step`: the contract of the callers (roots before children, …); one counterexample per clause.
* *Singleton.* `Layered`: the use relation is acyclic.

## 4. Modules

'''
import re,os
mods=[l.split('Verif.')[1].strip() for l in open('/verif/lean/Verif.lean') if 'import Verif.' in l]
for f in mods:
    t=open(f'/verif/lean/Verif/{f}.lean').read()
    h=re.search(r'/-!(.*?)(-/|\n\s*\n)',t,re.S)
    s=' '.join((h.group(1) if h else '').split())
    s=re.split(r'(?<=[.\)])\s(?=[A-Z])',s)[0]
    body += f'* `{f}`: {s}\n'
body += r'''
## 5. What is modelled and what is not

Modelled (files of `/repo`): `typelib/typename.cc`, `typelib/registry.cc`, `typelib/typemodel.cc` (all classes: comparison,
merge, resize, metadata, enum, compound), `typelib/typebuilder.cc`, `typelib/memory_layout.{hh,cc}`,
`typelib/value_ops.cc`, `typelib/value_ops.hh` streams, `typelib/endianness.cc`, `typelib/endian_swap.hh`,
`typelib/typevisitor.cc` and `typelib/value.{hh,cc}` (visitors, field access), `typelib/csvoutput.cc`, `typelib/exporter.cc`,
`typelib/utilmm/configset.{hh,cc}`, `typelib/utilmm/singleton/*`, `lang/csupport/containers.cc`, `lang/idl/export.cc`,
`lang/tlb/export.cc`, `lang/tlb/import.cc`, `lang/tlb/xmltools.hh`, `bindings/ruby/ext/memory.cc`,
`typelib/pluginmanager.cc`, `typelib/value_cast.hh`, `typelib/normalized_numerics.hh`, `lang/csupport/standard_types.cc`,
`bindings/ruby/ext/{convert,strings}.cc`, enumeration, definition, removal and freeing of types in `bindings/ruby/ext/registry.cc` and `bindings/ruby/lib/typelib/registry.rb`, the arrays and containers of `bindings/ruby/ext/specialized_types.cc`, the caching and
invalidation of `bindings/ruby/lib/typelib/{array_type,container_type,type,accessor,path}.rb`, the names of
`bindings/ruby/lib/typelib/{cxx,gccxml}.rb`,
`tools/typelib-clang-tlb-importer/NamingConversions.cpp` and the renaming table of `IgnoredOrRenamedTypes.cpp`.
@@EXTRA_MODELLED@@
Not modelled:

* the text printed for a number or character (`csvoutput` cells are a parameter), `operator <<` debugging output;
* the clang and gccxml importers (apart from the naming conversions), which depend on the AST of another compiler;
* the rest of the Ruby library (`bindings/ruby/lib`) and of the Ruby extension, which depend on the Ruby VM;
* `lang/idl` importing (it does not exist in this code), the command line tools;
* locale, threads (apart from C41), allocation failure (apart from the bound on element counts of `Vector::resize`).

## 6. Findings: where the code departs from the property

For each, the model follows the code and the named theorem proves the departure on a concrete case (or for all cases).

'''
findings = [
("a structure with a container of itself (`struct Node { std::vector<Node> children; }`) has no layout: `layout_of` recurses for ever","C57_recursive, C57_recursive_counterexample"),
("`Vector` keeps the layout of its elements from its creation: it is stale after `Registry::resize` (containers.cc:20-24)","C57_stale_counterexample"),
("`copySourceIDs` overwrites the source of a type when one of its aliases has none (registry.cc:189-190)","C51_alias_counterexample"),
("`load` of an element count of 0 leaves the previous elements of the destination in place (value_ops.cc:174)","C46_load_empty_counterexample, C46_load_empty_string_counterexample"),
("`Vector::resize` computes `new_size * element_size` modulo 2^64 (containers.cc:100): a hostile count makes `load` write out of bounds","C13_overflow_counterexample"),
("`Registry::isSame` increments `left_end` instead of `right_it` (registry.cc:567)","C31_counterexample"),
("`Type::isSame` is not symmetric (recursion stack keyed on the left type, typemodel.cc:76-100)","C27_counterexample"),
("null types are the same whatever their names and sizes","C26_null_counterexample"),
("`canCastTo` accepts containers with merely castable elements once the pair is on the stack","C28_container_elements_counterexample"),
("`simplify` breaks layouts of arrays of empty arrays and ignores `remove_trailing_skips = false` in merged blocks","C09_empty_array_counterexample, C09_empty_array_counterexample2, C08_trailing_skips_counterexample"),
("`isValidTypename` accepts text after a top-level `>`, `,`, `*`, doubled brackets, malformed integers; and rejects pointers to arrays and arrays in template arguments that are not last","C05_soundness_fails, C05_array_leaks, C05_template_leaks, C05_completeness_limits"),
("empty namespaces are read before their first character","C04_relative_empty_ub, C06_failures"),
("new plain elements of a vector are zero-filled although `init` would give enums a declared value","C19_enum_zero_filled"),
("endian swap: trailing padding of nested compounds is not skipped, enums are swapped as 4 bytes, arrays of dimension 0 are undefined, swapping in place corrupts","C20_trailing_padding_counterexample, C20_small_enum_counterexample, C20_empty_array_counterexample, C20_in_place_counterexample"),
("a failed `add` can leave the type registered (invalid derived alias)","C21_failed_add_counterexample"),
("clashes of relative names are decided by history; `remove` does not restore a shadowed name","C22_counterexample, C22_remove_counterexample"),
("`merge`: members of compounds are not compared by name, failure is not atomic, recursive types with arrays get size 0, aliases can hide types","C29_counterexample, C29_not_atomic_counterexample, C29_modified_counterexample, C29_recursive_counterexample, C29_alias_counterexample, C30_alias_counterexample"),
("`resize`: growths that cancel, unordered fields, explicitly resized compounds, unknown names (null dereference), recursive types (no termination)","C32_cancel_counterexample, C32_unordered_counterexample, C32_explicit_compound_counterexample, C32_unknown_name_ub, C32_recursive_type_diverges"),
("`offset + size` of a field wraps; padding is computed in `int`","C36_overflow_counterexample, C36_padding_counterexample"),
("array dimensions are read with `atoi` and not checked; pointers to arrays and templates cannot be built; a size given with another spelling changes an existing array","C37_parse_unchecked, C37_unbuildable, C37_size_counterexample"),
("TLB: only `<` and `>` are escaped, enum sizes, field order, container size 0, metadata ending a CDATA section, line ends, source ids, persistent arrays and aliases of non-persistent types are lost","C38_counterexample_*"),
("CSV: containers and opaques misalign the line, recursive types loop, the separator is not escaped","C39_*_counterexample"),
("IDL: an exporter that is reused keeps its state; template names are split; blobs and sequences clash","C40_reuse_counterexample, C40_template_counterexample, C40_blob_counterexample, C40_collision_counterexample"),
("IDL: vectors of arrays give `sequence<long[3]>`, which is not IDL","C48_array_element_counterexample"),
("`value_cast` of a compound gives the last number of the type reached before a number of another type, not an error","C49_compound_counterexample"),
("`addStandardTypes` lacks 22 of the 83 spellings of the integer types (`int short`, `unsigned int long`, ...) and dereferences a null pointer if `/bool` is there without `/int8_t`","C50_missing_spellings_counterexample, C50_null_counterexample"),
("destroying the last singleton, which uses another one, reads the deleted server","C41_nested_use_counterexample"),
("visitor: default result stops the visit, arrays ignore a stop, null pointers are followed, small enums are read as `int`, cyclic data diverge","C42_*_counterexample"),
("config_set: reading one value converts all; a child inserted twice is deleted twice","C43_get_one_converts_all, C43_shared_child_double_delete"),
("Ruby memory: stale zones, unknown roots and rejected zones break the counts","C44_*_counterexample"),
("C++ names: several template arguments, renamed components, `operator<`, one-letter names","C45_comma_counterexample, C45_rename_counterexample, C45_less_counterexample, C45_one_letter"),
("Ruby: unsigned 32-bit numbers from 2^31 on are read as negative, unsigned 64-bit ones from 2^63 on are refused, small types wrap, enums are written as 4 bytes","C52_get_u32_counterexample, C52_set_u64_counterexample, C52_set_wraps_counterexample, C52_enum_overrun_counterexample"),
("Ruby strings: `from_string` on a `char[0]` writes before the array, on a `char*` it calls `strncpy` with 2^64-1 bytes","C53_zero_dim_counterexample, C53_pointer_counterexample"),
("Ruby arrays: a negative index means the last element read so far; an index in an empty array gives the array itself","C54_negative_counterexample, C54_empty_counterexample"),
("Ruby containers: `[]=`, `raw_memcpy`, strings and `delete_if` leave objects that point to freed memory","C55_set_counterexample, C55_string_counterexample, C55_delete_if_counterexample"),
("Ruby loader: `parse_template` drops what follows the last `>`, so a class declared inside `std::vector<int>` becomes an alias of the vector (gccxml.rb:576-602); empty argument lists swallow the next bracket; what follows a `>` gets a slash; one-letter names differ from those of the clang importer","C60_nested_counterexample, C60_empty_counterexample, C60_suffix_counterexample, C60_letter_counterexample"),
("`validate` checks the size of an INIT block against one word too many and then leaves the list; `getElementLayout` does not catch the `length_error` of `simplify`","C09_init_bound_counterexample, C57_creation_counterexample"),
("Ruby `create_compound` takes negative offsets modulo 2^64, accepts overlapping fields, sizes below the fields and types of other registries; `create_enum` with a symbol given two values and `alias` to a taken name let a C++ exception through the interpreter (registry.cc:187-200, 630-640)","C61_negative_counterexample, C61_overlap_counterexample, C61_foreign_counterexample, C61_enum_twice_counterexample, C61_alias_taken_counterexample"),
("a Ruby hash as the value of an import or export option makes the extension read strings as arrays (registry.rb:137-138 against registry.cc:211-222); two keys that are the same as strings are put together or overwrite each other","C62_hash_counterexample, C62_same_name_counterexample"),
("`Accessor.find_in_type` never ends for types that contain themselves through a container, and gives the first of two fields of the same name twice (accessor.rb:20-55)","C63_recursive_counterexample, C63_same_name_counterexample"),
("`Type.recursive_dependencies` keeps incomplete results for the types of a cycle: after a call on `struct Node { Node* next; int value; }`, `/Node*` has no `/int` any more (type.rb:169-183)","C64_order_counterexample"),
('Ruby `ContainerType.of_size` with elements that end with padding raises, or silently gives other elements (the padding is left out of each copy, container_type.rb:250-253)','C65_of_size_padding_counterexample, C65_of_size_garbage_counterexample'),
('Ruby strings with multi-byte characters are cut when converted to `/std/string`: the number of characters is used as number of bytes (standard_convertions.rb:28-30)','C65_string_counterexample, C65_string_round_trip'),
('The clang importer ignores where a base class is: with two bases, the members of the second one get the offsets they have in the base (two fields at offset 0).','C66_bases_counterexample'),
('The clang importer takes a bit-field that starts at a byte for a plain field of the size of its type: fields overlap and the compound is larger than the class.','C66_bitfield_counterexample'),
('The clang importer gives all enums 4 bytes and reads enumerators as signed values of the underlying type: `enum : unsigned char {A = 200}` becomes 4 bytes and A = -56.','C66_enum_counterexample'),
('The clang importer aborts (uncaught AlreadyDefined) on `struct { bool a[4]; unsigned char b[4]; }`: aliasing the second element type registers the name of the array first.','C66_array_counterexample'),
('The clang importer recurses without end on `struct A { std::vector<A> v; }`.','C66_recursion_counterexample'),
('The clang importer makes compounds with two fields of the same name when a class hides a member of its base.','C66_shadow_counterexample'),
('The clang importer refuses a class with a private base, but accepts a class derived from it, private members of the base included.','C66_private_counterexample'),
('The clang importer aborts (uncaught exception) on a vector with an allocator it can describe.','C66_allocator_counterexample'),
('The clang importer takes unions for classes: the fields of the compound overlap (all at offset 0).','C66_union_counterexample'),
("`value['f'] = x` (`set`, `set_field`) is lost when the converted field has been read before by its accessor; the same for `raw_f=` and for `from_buffer`.",'C67_set_counterexample, C67_raw_set_counterexample, C67_from_buffer_counterexample'),
("`value['f']` does not see what was assigned by `value.f = x`.",'C67_get_counterexample'),
("Changes in a part obtained by `value['part']` or `raw_part` are not in the bytes of the value.",'C67_part_counterexample'),
('`dup` replaces the parts remembered by the original: changes made through parts obtained before are lost.','C67_dup_counterexample'),
('`value.f = nil` on a converted field raises nothing and drops the pending change.','C67_nil_counterexample'),
('Ruby: a conversion declared by name for an array or container whose elements are converted is overridden by the default conversion, contrary to the comments in array_type.rb:128 and container_type.rb:212','C68_array_override_counterexample'),
('Ruby: `convert_from_ruby Array` declared for an array or container is always overridden by the default one','C68_from_array_counterexample'),
('Ruby: a conversion declared for a number (e.g. /bool) is not taken into account by its containers','C68_number_counterexample'),
('Ruby: `Typelib.convert_to_ruby(key, if: …)` loses its condition (specializations.rb:304-306)','C68_condition_counterexample'),
('Ruby: getting the class of a type that contains itself through containers never ends','C68_recursive_counterexample'),
('Containers of enumerations cannot be filled from Ruby: EnumType has a `from_ruby` but no entry in `convertions_from_ruby`, so `ContainerType#concat` hands the symbol or string itself to `do_push`, which raises TypeError.','`C69_enum_container_counterexample`'),
('`to_simple_value` of an enumeration with an undeclared value is the empty string (`nil.to_s`), for all such values.','`C69_undeclared_enum_counterexample`'),
('`Typelib.from_ruby(value.to_simple_value, type)` raises RangeError for a `uint64_t` of 2^63 or more and truncates strings with multi-byte characters.','`C69_uint64_counterexample`, `C69_string_counterexample`'),
('A compound made from a hash keeps, in the fields that are not in the hash, whatever the allocated memory held.','`C69_hash`'),
('`RegistryExport` stores namespaces under the Ruby name of the module (`[name, []]` instead of `[m, args]`): they are never reused, and `Types.Types` gives the last namespace that was looked up','`C70_own_name_counterexample`'),
('looking a type up through an alias changes the prefix of its class: the types nested in it are not found any more by their own path','`C70_alias_counterexample`'),
('types removed from the registry are still found by `Types.…`, and what a relaxed lookup found is given to strict ones','`C70_removed_counterexample`, `C70_relaxed_counterexample`'),
('the regexp of the relaxed lookups (`/…/o`) is built once per process: lookups in other namespaces give an empty namespace instead of the type, or a type of another namespace','`C70_once_counterexample`, `C70_wrong_namespace_counterexample`'),
('`Types.ns.T` is a new object at each evaluation if the type is converted to a Ruby class','`C70_identity_counterexample`'),
('two modules that export the same registry share the filter blocks of the types','`C70_filter_counterexample`'),
('gccxml import: `struct Node { Node *next; }` or `struct Tree { std::vector<Tree> c; }` aborts the whole import with `NotFound`: the structure has a name in `id_to_name` before it is in the registry','C71_list_counterexample, C71_tree_counterexample'),
('gccxml import: all enums get the size of an `int`, whatever their type; an empty enum or a value out of the range of `int` aborts the whole import','C71_enum_size_counterexample, C71_enum_abort_counterexample'),
('gccxml import: bit-fields become whole fields that overlap','C71_bitfield_counterexample'),
('gccxml import: an array member without a size (`int data[];`), or deriving from a container, aborts the whole import','C71_array_counterexample, C71_base_counterexample'),
('gccxml import: if a base class has two members with the same name (one of them inherited), both get the offset of the first in the classes derived from it','C71_hidden_member_counterexample'),
('gccxml import: `resolve_type_definition` returns the name of the alias the first time and that of the type later for typedefs; `nil` first and a name later for inaccessible types','C71_history_counterexample'),
('`Typelib.copy` between types that `casts_to?` each other can produce a vector that is not a whole number of elements: canCastTo accepts structures with different padding as elements of containers once they were compared as fields','C72_vector_counterexample'),
('Ruby `==` between two Typelib values raises ArgumentError instead of returning false when the types are unrelated, and for two enums of which one has more symbols only one way round','C72_equality_counterexample'),
('`dup`/`Typelib.copy` of a value that contains a pointer ends the process: NoLayout is not caught by typelib_do_copy (typelib_compare catches it)','C72_abort_counterexample'),
('`Typelib.compare` does not check for invalidated values and reads from a null pointer (`Typelib.copy` checks)','C72_invalidated_counterexample'),
('`Type#cast` to a structure with more trailing padding gives a value larger than its memory: memory_eql? and the unsimplified byte array read past the end','C72_overrun_counterexample'),
('Ruby: `v.push(v[0])` on a vector whose elements are not numbers reads the element in the buffer that the push has just freed whenever the buffer has to grow (`Vector::push` resizes before it copies, containers.cc:144-157)','C73_own_full_partial, C73_cex_push_own'),
('Ruby: after `v[i, n]` or `v.raw_get(i)` on a vector of numbers, `v[i]` is no longer a number but a Typelib object on the memory of the vector, because `raw_get_no_boundary_check` leaves its object in `@elements` (container_type.rb:83-99)','C73_cex_number_object'),
('Ruby: `each` reads elements without a check of the index: a block that shrinks the vector makes it read past the end (container_type.rb:167-172)','C73_cex_each_clear'),
('Ruby: the size of a container is `INT2NUM` of a `size_t`: from 2^31 elements on it is negative, all indexes are refused, and an append that does not move the buffer never ends (`while @elements.size > self.size`, container_type.rb:275)','C73_cex_big_size, C73_cex_big_hang'),
('Ruby: `v[i, n]` with a negative `n` gives an empty container instead of an error','C73_cex_negative_slice'),
('Ruby: `erase` and `delete_if` on a string container do nothing; `erase` returns false, `delete_if` gives no sign (containers.cc:429-432, 488-489)','C73_cex_string_erase, C73_cex_string_delete_if'),
('`GCCXMLLoader.parsing_thread` takes a `ThreadError` raised by the tool (or a `StopIteration`) for the end of the queue: `load` returns with files missing','C74_cex_swallowed'),
('a failing `GCCXMLLoader.load` with several threads can leave its registry thread blocked for ever: a second failing parsing thread clears the end marker','C74_cex_thread_left'),
('`GCCXMLLoader.load` is not all or nothing: a conflict found by a merge leaves the registries merged before it','C74_cex_half_merged'),
('with several threads the order of the merges, hence the resulting registry or the error, depends on the schedule','C74_cex_order'),
('`dump(Value, FILE*)` ignores the result of `fwrite`: it returns normally when writes fail, and the file may have a hole in the middle; the same silence with a std::ostream.','C75_cex_file, C75_cex_ostream'),
('`dump(Value, int fd)` raises on a short write (pipe, socket, signal) instead of writing the rest, leaving a part of the value in the file.','C75_cex_short'),
('`parse_cxx_documentation_before` goes on at the end of the file when the comment is at its beginning (`lines[-1]` is the last line in Ruby): the comment at the end of the file becomes documentation; the same in `set_source_file`, which can give line 0 or -1.','C76_cex_wrap, C76_cex_line'),
('All comments before a declaration are joined, even separated by blank lines (licence headers); a field that starts with a comment on its line is taken for the documentation of the next one; a block comment whose lines have no stars is lost; `*/` stays in the middle of the text; `@meta` with two spaces is ignored.','C76_cex_joined, C76_cex_code, C76_cex_nostar, C76_cex_ends, C76_cex_meta'),
('GCCXMLLoader.load drops `typedef int Count;` (any typedef of a standard type) unless some new type of the same headers happens to contain that standard type, whether or not it uses the typedef','C77_cex_basic'),
('Merging registries can give a type the documentation of another type: when an alias of the destination and of the source designate different types of the same structure, merge accepts it and mergeMetaData merges by name','C78_alias_counterexample'),
('After a merge the `source_id` metadata can list two files while the registry reports only one source','C78_source_counterexample'),
('The metadata of a field whose name an earlier field also has are lost in a merge; it gets those of the first field','C78_same_name_counterexample'),
("Ruby `md['k'] = ['a']` raises TypeError after having removed the key `k`",'C79_set_counterexample'),
('Ruby `MetaData#delete` with several keys silently removes none','C79_delete_counterexample'),
('Keys and values of metadata given from Ruby are cut at the first NUL byte, so different keys collide','C79_nul_counterexample'),
("`Registry::dump` with `NameOnly` prints the name of the type an alias is for instead of the alias' own name, so a name is listed once per alias and alias names are not shown",'C80_names_counterexample'),
('displaying an opaque, enum, pointer or container does not show its size','C80_size_counterexample'),
('the clang importer drops `include`, `include_paths` and `rawflags`: `include_paths` is a keyword parameter of its own and `options[:include_paths]` is always nil','C81_clang_counterexample'),
('choosing the importer `gccxml` runs castxml, since `parsing_thread` defaults to `castxml: true` and `GCCXMLLoader.load` does not pass anything','C81_gccxml_counterexample'),
('when gccxml fails a NameError is raised instead of the ArgumentError, the message uses an undefined variable `file`','C81_error_counterexample'),
('`CLangLoader.preprocess` raises NoMethodError when `include` or `define` is missing and ignores `include_paths` and `rawflags`','C81_preprocess_counterexample'),
('Ruby `Type.compatible_with_memcpy?` is false for every type: it examines the pair [layout, init layout] as if it was the layout','C82_memcpy_counterexample'),
('`memory_layout(accept_pointers: true)` describes pointers as data to copy although the documentation says they are skipped','C82_pointers_counterexample'),
("sizes of 2^63 and more appear as negative numbers in Ruby's memory layouts",'C82_large_counterexample'),
('`to_h` of a type that contains a vector of itself recurses without end (its classes cannot be made either, C68)','C83_recursive_counterexample'),
('`to_h(layout_info: true)` tells the offset of the first field for all fields of the same name','C83_duplicate_counterexample'),
('`to_h(layout_info: true)` of a compound with a field name that is not ASCII raises "no such field"','C83_ascii_counterexample'),
('`to_h` does not tell what a pointer points to','C83_pointer_counterexample'),
('sizes of 2^62 and more are told as negative numbers','C83_large_counterexample'),
('the clang importer runs the paragraphs of a comment together','C84_paragraphs_counterexample'),
('one block of another kind (\\\\code, \\\\param) in a comment makes the clang importer drop the whole documentation','C84_block_counterexample'),
('the clang importer drops the arguments of inline commands from the documentation, and notes an empty one for comments of white space','C84_inline_counterexample, C84_blank_counterexample'),
('the clang importer notes the target of relative symbolic links as it is, and resolves only one of a chain of links','C84_link_counterexample'),
('the location of a file with `:` in its path is not read back','C84_colon_counterexample'),
('a gccxml node with a file and no line makes the loading fail with a TypeError','C84_no_line_counterexample'),
('the gccxml importer notes line 0 or -1 if all lines up to the reported one are empty (`content[-1]` is the last line)','C84_empty_counterexample'),
('The hash that `keys` of an enumeration returns is the one the class remembers: a program that changes it changes all later answers of `keys` and `to_h`','C85_shared_counterexample'),
('A symbol added (from C++) after the first call of `keys` is missing from `keys` for ever, although `value_of` knows it','C85_stale_counterexample'),
('Enumeration symbols are cut at a NUL byte: `name_of` gives a name that `value_of` refuses, and `keys` merges symbols','C85_nul_counterexample'),
('`name_of(1.9)` is accepted and means `name_of(1)`','C85_truncated_counterexample'),
('`keys` has binary strings: a symbol with a character that is not ASCII is not found with `keys[name]`','C85_encoding_counterexample'),
('A structure with fields `x` and `raw_x` (any name after `raw_` in the alphabet): `value.raw_x` and `value.raw_x = ...` silently mean the field `x`','C86_raw_counterexample'),
('A field called like a method of every object (`dup`, `freeze`, `hash`, `send`) replaces it, also where the library itself defines and uses it (Type#dup, Type#freeze)','C86_overload_counterexample'),
("A converted field called `get_cached` replaces the library's `raw_get_cached`, which invalidation uses: the `raw_` methods of converted fields are not checked",'C86_protected_counterexample'),
('`to_byte_array(merge_skip_copy: false)` on a vector of structures, even unpadded, ends the process: element layout (always merged) and layout in force disagree, the C++ exception is not caught','C87_unmerged_counterexample'),
('`to_byte_array` and `from_buffer` on a type with a pointer or opaque end the process (NoLayout is not caught), where `marshalling_size` gives nil','C87_no_layout_counterexample'),
('`marshalling_size` takes no options, so it is not the size of `to_byte_array` with options; it is negative from 2 GiB','C87_size_options_counterexample, C87_size_counterexample'),
('`accept_pointers: true` marshals addresses as data and `from_buffer` stores them (documented as ignored); `accept_opaques: true` copies the bytes of opaques between fields','C87_pointers_copied_counterexample, C87_opaques_copied_counterexample'),
('`to_byte_array` of a value without bytes evaluates `&buffer[0]` on an empty vector','C87_empty_counterexample'),
("`full_name('::', true)` of a template, documented as its C++ name, is no C++ for arguments that are built-in types: `/std/vector</int>` gives `std::vector<::int>`",'C88_template_counterexample, C88_template'),
('the root classes of the Ruby library are all equal: `Typelib::NumericType == Typelib::CompoundType` is true (their guard types are null types of the same name), `Type == NumericType` is true and `NumericType == Type` false','C89_root_counterexample'),
('`type == Typelib::NullType`, and comparing a type with a Ruby class derived from a type, raise TypeError (no `@type` in these classes)','C89_raises_iff, C89_derived_counterexample'),
('a plugin in TYPELIB_RUBY_PLUGIN_PATH that raises is lost, with all after it: the plugins are recorded as loaded before these files are required, and later calls succeed silently','C90_lost_counterexample'),
('a forced `load_typelib_plugins` ignores new plugins in the directories of TYPELIB_RUBY_PLUGIN_PATH while the variable is unchanged','C90_forced_counterexample'),
('`registry.resize_type(type, -1)` asks for 2^64 - 1 bytes instead of raising','C91_negative_counterexample'),
('a type given twice in `Registry#resize`, by class and by name, silently gets the first of the two sizes','C91_twice_counterexample'),
('`Registry#resize` with the name of an unknown type dereferences a null pointer','C91_unknown_counterexample'),
('`registry.add(type)` raises after it has added types, when an alias the type does not even mention names another type','C92_not_atomic_counterexample'),
("Ruby `Registry#remove` with a type of another registry takes the type over: it is deleted twice (bindings/ruby/ext/registry.cc:93-102)","C59_foreign_counterexample"),
("plugins: a search path that is empty or ends in a colon makes the constructor throw (pluginmanager.cc:47); a refused plugin is leaked; a definition plugin added twice is deleted twice","C56_trailing_colon_counterexample, C56_leak_counterexample, C56_twice_counterexample"),
("an alias requested after it was propagated stays non-persistent, so it is not exported","C47_propagated_first"),
]
try: findings += findings_extra
except NameError: pass
for i,(a,b) in enumerate(findings,1):
    body += f"{i}. {a}: " + ', '.join('`'+x.strip()+'`' for x in b.split(',')) + '.\n'
body = body.replace('@@EXTRA_MODELLED@@', globals().get('extra_modelled',''))
open('/verif/DESIGN.md','w').write(body)
