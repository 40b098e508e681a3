{
 "claims": [
  {
   "property": "C01",
   "status": "proved",
   "theorems": [
    "Verif.Names.C01_nameSort_strict_total",
    "Verif.Names.C01_namespace_contiguous"
   ],
   "note": "strict total order; members of a namespace contiguous in any sorted sequence"
  },
  {
   "property": "C02",
   "status": "proved",
   "theorems": [
    "Verif.Registry.C02_default_namespace",
    "Verif.Registry.C02_import_namespace"
   ],
   "note": "setDefaultNamespace and importNamespace, in every registry any history of calls produces, for namespaces of any depth; example in RegistryExamples."
  },
  {
   "property": "C03",
   "status": "proved",
   "theorems": [
    "Verif.Names.C03_split_join",
    "Verif.Names.C03_join_any"
   ],
   "note": "exact for canonical names; up to one trailing '/' for every absolute name"
  },
  {
   "property": "C04",
   "status": "proved",
   "theorems": [
    "Verif.Names.C04_normalized",
    "Verif.Names.C04_isInNamespace_recursive",
    "Verif.Names.C04_direct_imp_recursive",
    "Verif.Names.C04_relative_name",
    "Verif.Names.C04_relative_empty_ub",
    "Verif.Names.C04_isInNamespace_components"
   ],
   "note": "for all strings; component-level characterisation for canonical names; an empty namespace passed to getRelativeName is undefined behaviour (C04_relative_empty_ub)"
  },
  {
   "property": "C05",
   "status": "proved",
   "theorems": [
    "Verif.Names.C05_validity_check_terminates",
    "Verif.Names.C05_wellformed_accepted",
    "Verif.Names.C05_accepted_wellformed",
    "Verif.Names.C05_soundness_fails",
    "Verif.Names.C05_completeness_limits",
    "Verif.Names.C05_arrays",
    "Verif.Names.C05_array_leaks",
    "Verif.Names.C05_templates",
    "Verif.Names.C05_template_leaks"
   ],
   "note": "completeness for the whole grammar, termination, and soundness on the three classes of names of the statement; outside of them soundness is false of the code (C05_soundness_fails, C05_array_leaks, C05_template_leaks)"
  },
  {
   "property": "C06",
   "status": "proved",
   "theorems": [
    "Verif.Names.C06_minimal_path",
    "Verif.Names.C06_minimal_path_suffix",
    "Verif.Names.C06_failures"
   ],
   "note": "for absolute names and absolute namespaces; for empty or relative namespaces the code is undefined (C06_failures)"
  },
  {
   "property": "C07",
   "status": "proved",
   "theorems": [
    "Verif.Layout.C07_denotes_unique",
    "Verif.Layout.C07_raw_layout_covers",
    "Verif.Layout.C07_rejected"
   ],
   "note": "well-formed types; types without a layout are rejected with an exception (C07_rejected)"
  },
  {
   "property": "C08",
   "status": "proved",
   "theorems": [
    "Verif.Layout.C08_simplified_layout_same_meaning",
    "Verif.Layout.C08_init_same_meaning",
    "Verif.Layout.C08_trailing_skips_counterexample"
   ],
   "note": "operation and initialisation bytecode; remove_trailing_skips=false is not honoured by the code (C08_trailing_skips_counterexample), which the statement allows"
  },
  {
   "property": "C09",
   "status": "proved",
   "theorems": [
    "Verif.Layout.C09_validate",
    "Verif.Layout.C09_skipBlock",
    "Verif.Layout.C09_empty_array_counterexample",
    "Verif.Layout.C09_empty_array_counterexample2",
    "Verif.Layout.C09_validate_iff",
    "Verif.Layout.C09_blocks",
    "Verif.Layout.C09_init_bound_counterexample"
   ],
   "note": "well-formed types; false for arrays of empty arrays (C09_empty_array_counterexample, ..2)"
  },
  {
   "property": "C10",
   "status": "proved",
   "theorems": [
    "Verif.Value.C10_dump_load",
    "Verif.Value.C10_dump_init_load"
   ],
   "note": "well-formed types that have a layout; destination initialised by init (C10_dump_init_load) or any value with empty containers (C10_dump_load); other destinations: C46"
  },
  {
   "property": "C11",
   "status": "proved",
   "theorems": [
    "Verif.Value.C11_dump_size",
    "Verif.Value.C11_dump_size_agrees"
   ],
   "note": "getDumpSize counts modulo 2^64; a dump of a valid value smaller than 2^64 is counted exactly"
  },
  {
   "property": "C12",
   "status": "proved",
   "theorems": [
    "Verif.Value.C12_fixed_buffer"
   ],
   "note": "whatever the value and buffer size (below 2^32, the type of the size argument)"
  },
  {
   "property": "C13",
   "status": "partial",
   "theorems": [
    "Verif.Value.C13_overflow_counterexample",
    "Verif.Value.C13_load_arbitrary_partial",
    "Verif.Value.C13_load_arbitrary_no_vector"
   ],
   "note": "proved for every buffer in which no 8 bytes read as a count times an element size reach 2^64 (and for every buffer if the type has no vector); false otherwise: Vector::resize multiplies modulo 2^64 (C13_overflow_counterexample). Missing: nothing else"
  },
  {
   "property": "C14",
   "status": "proved",
   "theorems": [
    "Verif.Value.C14_truncated",
    "Verif.Value.C14_trailing"
   ],
   "note": "strict prefixes are always refused; trailing bytes are accepted iff as many as the trailing padding of the type or none"
  },
  {
   "property": "C15",
   "status": "proved",
   "theorems": [
    "Verif.Value.C15_copy"
   ],
   "note": "two different objects of the same type; the model makes aliasing, leaks and use after destruction undefined, and the theorem shows the outcome is a normal return"
  },
  {
   "property": "C16",
   "status": "proved",
   "theorems": [
    "Verif.Value.C16_compare",
    "Verif.Value.C16_equivalence"
   ],
   "note": "types may contain pointers (compared as bytes)"
  },
  {
   "property": "C17",
   "status": "proved",
   "theorems": [
    "Verif.Value.C17_init",
    "Verif.Value.C17_destroy"
   ],
   "note": "first declared value = first in the order of Enum::values(), as in the code"
  },
  {
   "property": "C18",
   "status": "proved",
   "theorems": [
    "Verif.Value.C18_zero"
   ],
   "note": ""
  },
  {
   "property": "C19",
   "status": "proved",
   "theorems": [
    "Verif.Value.C19_resize",
    "Verif.Value.C19_clear",
    "Verif.Value.C19_push",
    "Verif.Value.C19_set",
    "Verif.Value.C19_get",
    "Verif.Value.C19_erase",
    "Verif.Value.C19_delete_if",
    "Verif.Value.C19_call",
    "Verif.Value.C19_history",
    "Verif.Value.C19_enum_zero_filled"
   ],
   "note": "values passed to push/erase/setElement are not elements of the same vector; predicates of delete_if depend on the value only; new plain-data elements are zero-filled without init (C19_enum_zero_filled), which the statement allows"
  },
  {
   "property": "C20",
   "status": "partial",
   "theorems": [
    "Verif.Endian.C20_swap_partial",
    "Verif.Endian.C20_involution_partial",
    "Verif.Endian.C20_scalar",
    "Verif.Endian.C20_integer_swap",
    "Verif.Endian.C20_unsupported_rejected",
    "Verif.Endian.C20_trailing_padding_counterexample",
    "Verif.Endian.C20_small_enum_counterexample",
    "Verif.Endian.C20_empty_array_counterexample",
    "Verif.Endian.C20_in_place_counterexample"
   ],
   "note": "proved for types of size < 2^31 without trailing padding before a following field or element and with 4-byte enums (C20_swap_partial, C20_involution_partial); false of the code for the others (C20_*_counterexample); unsupported types are rejected; the integer swaps are proved at bit level for a little-endian host"
  },
  {
   "property": "C21",
   "status": "partial",
   "theorems": [
    "Verif.Registry.C21_failed_add_counterexample",
    "Verif.Registry.C21_side_conditions_needed",
    "Verif.Registry.C21_add",
    "Verif.Registry.C21_failed_add_partial",
    "Verif.Registry.C21_add_succeeds",
    "Verif.Registry.C21_alias",
    "Verif.Registry.C21_removeAlias",
    "Verif.Registry.C21_clearAliases",
    "Verif.Registry.C21_namespaces_keep",
    "Verif.Registry.C21_lifetime"
   ],
   "note": "proved for every history: add, alias, removeAlias, clearAliases, remove, namespace changes and lifetime. \"A failed add changes nothing\" is false in one case (invalid derived alias), proved as C21_failed_add_counterexample; C21_failed_add_partial lists all failures. Names that are not absolute but accepted by the validity check are excluded (C21_side_conditions_needed)."
  },
  {
   "property": "C22",
   "status": "partial",
   "theorems": [
    "Verif.Registry.C22_counterexample",
    "Verif.Registry.C22_remove_counterexample",
    "Verif.Registry.C22_root_namespace_partial",
    "Verif.Registry.C22_refreshed_partial",
    "Verif.Registry.C22_registrations_partial"
   ],
   "note": "false as stated (C22_counterexample, C22_remove_counterexample). Proved: root namespace, any history; after any setDefaultNamespace; registrations only in a fixed namespace."
  },
  {
   "property": "C23",
   "status": "proved",
   "theorems": [
    "Verif.Registry.C23_remove"
   ],
   "note": "any dependency graph, cyclic ones included."
  },
  {
   "property": "C24",
   "status": "proved",
   "theorems": [
    "Verif.Registry.C24_resolved_types_are_registered",
    "Verif.Registry.C24_relative_names_sound",
    "Verif.Registry.C24_getAliasesOf",
    "Verif.Registry.C24_types_survive"
   ],
   "note": "any history."
  },
  {
   "property": "C25",
   "status": "proved",
   "theorems": [
    "Verif.Registry.C25_alias_propagates",
    "Verif.Registry.C25_alias_terminates",
    "Verif.Registry.C25_all_aliases_propagated"
   ],
   "note": "any depth of derivation, any order of registrations and aliases; termination of the mutual recursion included."
  },
  {
   "property": "C26",
   "status": "partial",
   "theorems": [
    "Verif.Graph.C26_null_counterexample",
    "Verif.Graph.C26_compare_terminates",
    "Verif.Graph.C26_reflexive",
    "Verif.Graph.C26_isSame_iff",
    "Verif.Graph.C26_isSame_structural_partial"
   ],
   "note": "termination, reflexivity and an exact characterisation (C26_isSame_iff) are proved for every type graph; structural equality is proved without null types, for which it is false (C26_null_counterexample)."
  },
  {
   "property": "C27",
   "status": "partial",
   "theorems": [
    "Verif.Graph.C27_counterexample",
    "Verif.Graph.C27_symmetric_partial"
   ],
   "note": "false as stated (C27_counterexample); proved for types without structural duplicates and null types."
  },
  {
   "property": "C28",
   "status": "partial",
   "theorems": [
    "Verif.Graph.C28_container_elements_counterexample",
    "Verif.Graph.C28_isSame_canCast",
    "Verif.Graph.C28_canCast_layout_partial"
   ],
   "note": "isSame implies canCastTo: proved. The layout part is proved for every path into the types; \"with castable types\" is false for the elements of containers (C28_container_elements_counterexample), because the recursion stack forgets whether equality was required."
  },
  {
   "property": "C29",
   "status": "partial",
   "theorems": [
    "Verif.Merge.C29_conflict",
    "Verif.Merge.C29_no_damage",
    "Verif.Merge.C29_counterexample",
    "Verif.Merge.C29_not_atomic_counterexample",
    "Verif.Merge.C29_modified_counterexample",
    "Verif.Merge.C29_recursive_counterexample",
    "Verif.Merge.C29_alias_counterexample",
    "Verif.Merge.C29_merge_partial",
    "Verif.Merge.C29_merge_succeeds_partial",
    "Verif.Merge.C29_merge_again_partial"
   ],
   "note": "Proved for sources made of their own types, recursive ones included as long as no array or string is part of its own elements (Copyable), and destinations that agree on the definitions of the types they share by name and whose aliases do not hide names of the source (Dest): on success every type of b is in a with the same definition, every alias names a type that is the same, existing objects and names are untouched, the result is closed under dependsOn, nothing else is added, and merging again succeeds and creates nothing. With no agreement assumed between the registries (only that they are made of different type objects): a merge that succeeds implies that every type of b already known by name in a had the same definition there to any depth, container sizes apart (C29_conflict), and whatever the outcome, exceptions in the middle included, no existing type is modified (container sizes apart) and every name keeps its type (C29_no_damage). Without these conditions the claim is false: witnesses C29_counterexample (component names are not compared; the second merge throws), C29_recursive_counterexample (an array on a cycle gets size 0), C29_modified_counterexample (size of an existing vector changed), C29_alias_counterexample, C29_not_atomic_counterexample. Metadata merging is modelled separately."
  },
  {
   "property": "C30",
   "status": "partial",
   "theorems": [
    "Verif.Merge.C30_alias_counterexample",
    "Verif.Merge.C30_minimal_partial",
    "Verif.Merge.C30_minimal_succeeds_partial",
    "Verif.Merge.C30_minimal_unknown",
    "Verif.Merge.C30_minimal_auto_partial",
    "Verif.Merge.C30_minimal_auto_succeeds_partial",
    "Verif.Merge.C30_minimal_alone_partial"
   ],
   "note": "Proved for minimal(name) and minimal(auto_types), recursive types included (no array or string on its own cycle), and for every content of new Registry that agrees with the types to be copied (Dest); C30_minimal_alone_partial has no condition on it when it is empty. Missing: arrays and strings that are part of their own elements (array sizes are wrong there, see C29_recursive_counterexample) and standard types that disagree with the copied ones."
  },
  {
   "property": "C31",
   "status": "partial",
   "theorems": [
    "Verif.Registry.C31_answers_partial",
    "Verif.Registry.C31_counterexample"
   ],
   "note": "false: undefined behaviour on every pair of non-empty registries whose first types are the same (C31_counterexample); the answers it does give are proved right."
  },
  {
   "property": "C32",
   "status": "partial",
   "theorems": [
    "Verif.Resize.C32_cancel_counterexample",
    "Verif.Resize.C32_unordered_counterexample",
    "Verif.Resize.C32_explicit_compound_counterexample",
    "Verif.Resize.C32_unknown_name_ub",
    "Verif.Resize.C32_recursive_type_diverges",
    "Verif.Resize.C32_resize_partial",
    "Verif.Resize.C32_growth_partial"
   ],
   "note": "proved when fields are ordered, no explicitly resized compound, growths never cancel to an intermediate 0 total with later growth, dependencies ranked (no recursion); each excluded case has a counterexample theorem (C32_cancel, C32_unordered, C32_explicit_compound, C32_unknown_name_ub, C32_recursive_type_diverges): the code violates the claim there"
  },
  {
   "property": "C33",
   "status": "proved",
   "theorems": [
    "Verif.Exporter.C33_order",
    "Verif.Exporter.C33_outcome"
   ],
   "note": "for every registry reachable by registry operations; what a concrete exporter writes for one entry is an oracle (its boolean result)"
  },
  {
   "property": "C34",
   "status": "proved",
   "theorems": [
    "Verif.Meta.C34_refines_map",
    "Verif.Meta.C34_canonical",
    "Verif.Meta.C34_merge_union",
    "Verif.Meta.C34_merge_idempotent",
    "Verif.Meta.C34_merge_again",
    "Verif.Meta.C34_merge_commutative",
    "Verif.Meta.C34_merge_associative",
    "Verif.Meta.C34_set_replaces",
    "Verif.Meta.C34_compound_merge"
   ],
   "note": "for every history of metadata operations"
  },
  {
   "property": "C35",
   "status": "proved",
   "theorems": [
    "Verif.EnumModel.C35_get_first",
    "Verif.EnumModel.C35_add_conflict",
    "Verif.EnumModel.C35_get_inverse",
    "Verif.EnumModel.C35_next_value",
    "Verif.EnumModel.C35_automatic_values"
   ],
   "note": "for every history of add calls whose automatic values do not pass INT_MAX (signed overflow: ub in the model)"
  },
  {
   "property": "C36",
   "status": "partial",
   "theorems": [
    "Verif.CompoundModel.C36_size",
    "Verif.CompoundModel.C36_size_exact",
    "Verif.CompoundModel.C36_overflow_counterexample",
    "Verif.CompoundModel.C36_padding_partial",
    "Verif.CompoundModel.C36_padding_counterexample",
    "Verif.CompoundModel.C36_sort",
    "Verif.CompoundModel.C36_getField"
   ],
   "note": "no size_t overflow in offset+size (counterexample proved); getTrailingPadding exact below 2^31 (it computes with int: counterexample proved)"
  },
  {
   "property": "C37",
   "status": "partial",
   "theorems": [
    "Verif.TypeBuilder.C37_parse",
    "Verif.TypeBuilder.C37_parse_total",
    "Verif.TypeBuilder.C37_parse_unchecked",
    "Verif.TypeBuilder.C37_build",
    "Verif.TypeBuilder.C37_build_again",
    "Verif.TypeBuilder.C37_buildable_names",
    "Verif.TypeBuilder.C37_build_succeeds",
    "Verif.TypeBuilder.C37_addArrayMinor",
    "Verif.TypeBuilder.C37_has",
    "Verif.TypeBuilder.C37_unbuildable",
    "Verif.TypeBuilder.C37_build_size",
    "Verif.TypeBuilder.C37_size_counterexample",
    "Verif.TypeBuilder.C37_registry_build",
    "Verif.TypeBuilder.C37_registry_has"
   ],
   "note": "parsing: every base and modifier list, any spacing (dimensions up to INT_MAX; atoi is undefined above, C37_parse_unchecked). Building: for every reachable registry in which decorated names are honest; the outcome is the right type or BadName. Missing: pointers to arrays or to template types always fail in the code (C37_unbuildable), so \"every list of modifiers\" is false there"
  },
  {
   "property": "C38",
   "status": "partial",
   "theorems": [
    "Verif.Tlb.C38_document",
    "Verif.Tlb.C38_counterexample_name",
    "Verif.Tlb.C38_counterexample_field_name",
    "Verif.Tlb.C38_counterexample_enum_size",
    "Verif.Tlb.C38_counterexample_field_order",
    "Verif.Tlb.C38_counterexample_container_size",
    "Verif.Tlb.C38_counterexample_metadata",
    "Verif.Tlb.C38_counterexample_newline",
    "Verif.Tlb.C38_counterexample_source",
    "Verif.Tlb.C38_counterexample_array",
    "Verif.Tlb.C38_counterexample_alias",
    "Verif.Tlb.C38_roundtrip_partial"
   ],
   "note": "Export followed by import, through a model of the text and of the XML reading, proved for every reachable registry the format can hold (C38_roundtrip_partial, C38_document). Partial because the claim is false without these restrictions: counterexamples for unescaped names, enum sizes, field order, container size 0, CDATA end and line ends in metadata, lost source ids, persistent arrays, aliases whose base is not persistent. libxml2 is described by a small specification (Verif.Xml), not modelled function by function."
  },
  {
   "property": "C39",
   "status": "proved",
   "theorems": [
    "Verif.Csv.C39_columns",
    "Verif.Csv.C39_same_number",
    "Verif.Csv.C39_produced",
    "Verif.Csv.C39_split",
    "Verif.Csv.C39_text",
    "Verif.Csv.C39_example",
    "Verif.Csv.C39_container_counterexample",
    "Verif.Csv.C39_opaque_counterexample",
    "Verif.Csv.C39_recursive_counterexample",
    "Verif.Csv.C39_unsupported_counterexample",
    "Verif.Csv.C39_separator_counterexample"
   ],
   "note": "The text of a cell is a parameter. Counterexamples proved: containers; opaque types (the overload in LineVisitor does not redefine the virtual method, so the line misses the column); recursive types have no header; unsupported number sizes throw in the line only; a character cell may contain the separator."
  },
  {
   "property": "C40",
   "status": "proved",
   "theorems": [
    "Verif.Idl.C40_example",
    "Verif.Idl.C40_reuse_counterexample",
    "Verif.Idl.C40_template_counterexample",
    "Verif.Idl.C40_blob_counterexample",
    "Verif.Idl.C40_collision_counterexample",
    "Verif.Idl.C40_modules",
    "Verif.Idl.C40_references",
    "Verif.Idl.C40_namespace",
    "Verif.Idl.C40_balanced"
   ],
   "note": "For one export by a new exporter object, as PluginManager::save makes them: any types and aliases in any order, balanced modules, every definition inside exactly the modules of its namespace, typedefs after them grouped by namespace, no empty module; modules named by the components; references name the modules opened. Not true of an object that is used again (C40_reuse_counterexample); template components are split at their slashes, blobs and sequences can get wrong or clashing names (counterexamples)."
  },
  {
   "property": "C41",
   "status": "partial",
   "theorems": [
    "Verif.Singleton.C41_lifetime_partial",
    "Verif.Singleton.C41_reference_count",
    "Verif.Singleton.C41_nested_use_counterexample"
   ],
   "note": "proved for every acyclic use relation, number of threads and interleaving, unless a call leaves the process without singletons by destroying one that uses another (C41_lifetime_partial, C41_reference_count); in that case the code reads the deleted server (C41_nested_use_counterexample). Missing: nothing else"
  },
  {
   "property": "C42",
   "status": "proved",
   "theorems": [
    "Verif.Visitor.C42_visits",
    "Verif.Visitor.C42_calls",
    "Verif.Visitor.C42_completes",
    "Verif.Visitor.C42_completes_only",
    "Verif.Visitor.C42_inside",
    "Verif.Visitor.C42_element_inside",
    "Verif.Visitor.C42_disjoint",
    "Verif.Visitor.C42_access_inside",
    "Verif.Visitor.C42_get_field",
    "Verif.Visitor.C42_get_field_leaf",
    "Verif.Visitor.C42_example",
    "Verif.Visitor.C42_example_completes",
    "Verif.Visitor.C42_example_fits",
    "Verif.Visitor.C42_example_get_field",
    "Verif.Visitor.C42_default_counterexample",
    "Verif.Visitor.C42_stop_counterexample",
    "Verif.Visitor.C42_null_pointer_counterexample",
    "Verif.Visitor.C42_small_enum_counterexample",
    "Verif.Visitor.C42_cycle_counterexample"
   ],
   "note": "Addresses do not wrap; dereferencing a null pointer counts as undefined behaviour whatever it points to. Counterexamples proved: the default visitor (defval=false) stops after the first number; returning false inside an array does not stop the visit; null pointers are followed; enums smaller than 4 bytes are accessed as int; cyclic data make the visit infinite."
  },
  {
   "property": "C43",
   "status": "proved",
   "theorems": [
    "Verif.ConfigSet.C43_get_strings",
    "Verif.ConfigSet.C43_children",
    "Verif.ConfigSet.C43_exists_empty",
    "Verif.ConfigSet.C43_get_typed",
    "Verif.ConfigSet.C43_get_one_converts_all",
    "Verif.ConfigSet.C43_destroy",
    "Verif.ConfigSet.C43_shared_child_double_delete"
   ],
   "note": "histories of insert/set/erase/child insertion on a set, and deletion of a tree of sets; find() on a multimap assumed to return the first element of the key (libstdc++); a set inserted twice is deleted twice (C43_shared_child_double_delete), and reading one value converts all of them (C43_get_one_converts_all)"
  },
  {
   "property": "C44",
   "status": "partial",
   "theorems": [
    "Verif.RubyMemory.C44_calls_succeed",
    "Verif.RubyMemory.C44_refcount",
    "Verif.RubyMemory.C44_live_iff",
    "Verif.RubyMemory.C44_root_kept",
    "Verif.RubyMemory.C44_freed_exactly_when_unreferenced_partial",
    "Verif.RubyMemory.C44_no_leak",
    "Verif.RubyMemory.C44_example",
    "Verif.RubyMemory.C44_stale_zone_counterexample",
    "Verif.RubyMemory.C44_unknown_root_counterexample",
    "Verif.RubyMemory.C44_rejected_zone_counterexample"
   ],
   "note": "all histories of calls that respect a contract (Step): roots registered before their children, no wrapping of an address whose zone object was collected while the entry survives, explicit references given back at most once. Counterexamples show that each clause is needed. rb_raise is an exception; the Ruby collector and threads are not modelled"
  },
  {
   "property": "C45",
   "status": "partial",
   "theorems": [
    "Verif.CxxNames.C45_to_typelib",
    "Verif.CxxNames.C45_to_cxx",
    "Verif.CxxNames.C45_round_trip_partial",
    "Verif.CxxNames.C45_reverse_partial",
    "Verif.CxxNames.C45_injective",
    "Verif.CxxNames.C45_one_letter",
    "Verif.CxxNames.C45_renamed",
    "Verif.CxxNames.C45_not_renamed",
    "Verif.CxxNames.C45_comma_counterexample",
    "Verif.CxxNames.C45_rename_counterexample",
    "Verif.CxxNames.C45_less_counterexample"
   ],
   "note": "both conversions computed for every name (token sequences as printed by clang); exact round trip for names without optional spaces, reverse round trip for names without several template arguments; it is false with several arguments (C45_comma_counterexample), and one-letter global names are not made absolute (C45_one_letter)"
  },
  {
   "property": "C46",
   "status": "partial",
   "theorems": [
    "Verif.Value.C46_load_empty_counterexample",
    "Verif.Value.C46_load_empty_string_counterexample",
    "Verif.Value.C46_load_any_destination_partial"
   ],
   "note": "proved when no container of v is empty at any depth; false of the code otherwise (C46_load_empty_counterexample, C46_load_empty_string_counterexample)"
  },
  {
   "property": "C47",
   "status": "proved",
   "theorems": [
    "Verif.Registry.C47_add",
    "Verif.Registry.C47_add_default",
    "Verif.Registry.C47_alias",
    "Verif.Registry.C47_alias_default",
    "Verif.Registry.C47_history",
    "Verif.Registry.C47_others",
    "Verif.Registry.C47_propagated_first"
   ],
   "note": "per-operation theorems and the history theorem; C47_propagated_first shows a consequence a user may not expect (an explicit alias of an already propagated name stays non-persistent)"
  },
  {
   "property": "C48",
   "status": "proved",
   "theorems": [
    "Verif.Idl.C48_struct",
    "Verif.Idl.C48_enum",
    "Verif.Idl.C48_sequence",
    "Verif.Idl.C48_builtin",
    "Verif.Idl.C48_rejected",
    "Verif.Idl.C48_usable_or_not",
    "Verif.Idl.C48_alias_rejected",
    "Verif.Idl.C48_reserved",
    "Verif.Idl.C48_alias",
    "Verif.Idl.C48_example",
    "Verif.Idl.C48_identifiers",
    "Verif.Idl.C48_array_element_counterexample"
   ],
   "note": "sizes 1, 2, 4, 8; element names of sequences without colons; vectors of arrays give invalid text (C48_array_element_counterexample), which the statement allows"
  },
  {
   "property": "C49",
   "status": "proved",
   "theorems": [
    "Verif.Visitor.C49_number",
    "Verif.Visitor.C49_sound",
    "Verif.Visitor.C49_refused",
    "Verif.Visitor.C49_compound_counterexample"
   ],
   "note": "Model of CastingVisitor on the visitor of C42. Casting a compound, array or container gives what some number of the type in it holds, which one depends on the visit (C49_compound_counterexample)."
  },
  {
   "property": "C50",
   "status": "proved",
   "theorems": [
    "Verif.Std.C50_adds",
    "Verif.Std.C50_again",
    "Verif.Std.C50_conflict",
    "Verif.Std.C50_spellings",
    "Verif.Std.C50_missing_spellings_counterexample",
    "Verif.Std.C50_example",
    "Verif.Std.C50_null_counterexample"
   ],
   "note": "All registries and ABIs. C50_missing_spellings_counterexample: the legal spellings that are not registered (22 of 83, such as 'int short'), proved to be all of them. C50_null_counterexample: a registry with /bool but without /int8_t makes the code dereference a null pointer."
  },
  {
   "property": "C51",
   "status": "partial",
   "theorems": [
    "Verif.Merge.C51_alias_counterexample",
    "Verif.Merge.C51_copySourceIDs",
    "Verif.Merge.C51_merge_partial"
   ],
   "note": "copySourceIDs for all reachable registries; merge under the conditions of C29 (Copyable, Dest). The clause on existing sources needs: b gives no source to a name that is an alias without source in the result; otherwise an existing source is overwritten (C51_alias_counterexample)."
  },
  {
   "property": "C52",
   "status": "proved",
   "theorems": [
    "Verif.RubyConvert.C52_get",
    "Verif.RubyConvert.C52_get_u32_counterexample",
    "Verif.RubyConvert.C52_set",
    "Verif.RubyConvert.C52_roundtrip",
    "Verif.RubyConvert.C52_set_u64_counterexample",
    "Verif.RubyConvert.C52_set_wraps_counterexample",
    "Verif.RubyConvert.C52_set_other",
    "Verif.RubyConvert.C52_enum_set",
    "Verif.RubyConvert.C52_enum_get",
    "Verif.RubyConvert.C52_enum_roundtrip",
    "Verif.RubyConvert.C52_enum_overrun_counterexample"
   ],
   "note": "The statement lists the exceptions. Findings: C52_get_u32_counterexample (unsigned 32-bit numbers from 2^31 on are read as negative), C52_set_u64_counterexample (numbers from 2^63 on cannot be assigned), C52_set_wraps_counterexample (small types wrap silently), C52_enum_overrun_counterexample (4 bytes are written whatever the size of the enum). Floating point numbers are not modelled."
  },
  {
   "property": "C53",
   "status": "proved",
   "theorems": [
    "Verif.RubyConvert.C53_to_string",
    "Verif.RubyConvert.C53_from_string",
    "Verif.RubyConvert.C53_zero_dim_counterexample",
    "Verif.RubyConvert.C53_pointer_counterexample",
    "Verif.RubyConvert.C53_set"
   ],
   "note": "Findings: from_string on an array of dimension 0 writes before the array (C53_zero_dim_counterexample); from_string on a char pointer is undefined behaviour (C53_pointer_counterexample)."
  },
  {
   "property": "C54",
   "status": "proved",
   "theorems": [
    "Verif.RubyArray.C54_element",
    "Verif.RubyArray.C54_slice",
    "Verif.RubyArray.C54_in_bounds",
    "Verif.RubyArray.C54_each",
    "Verif.RubyArray.C54_raw_get",
    "Verif.RubyArray.C54_same_object",
    "Verif.RubyArray.C54_negative_counterexample",
    "Verif.RubyArray.C54_empty_counterexample"
   ],
   "note": "Findings: the meaning of a negative index depends on which elements were read before (C54_negative_counterexample); on an array of dimension 0, any index gives the array itself (C54_empty_counterexample)."
  },
  {
   "property": "C55",
   "status": "proved",
   "theorems": [
    "Verif.RubyCache.C55_live",
    "Verif.RubyCache.C55_get",
    "Verif.RubyCache.C55_kept",
    "Verif.RubyCache.C55_set_counterexample",
    "Verif.RubyCache.C55_string_counterexample",
    "Verif.RubyCache.C55_delete_if_counterexample",
    "Verif.RubyCache.C55_order_counterexample"
   ],
   "note": "The C++ side of an operation is arbitrary, apart from the frame condition. Findings for operations that are not protected: C55_set_counterexample ([]= and raw_memcpy), C55_string_counterexample (strings have no contained_memory_id), C55_delete_if_counterexample (objects given to the block). C55_order_counterexample shows that outer containers have to be processed first."
  },
  {
   "property": "C56",
   "status": "proved",
   "theorems": [
    "Verif.Plugins.C56_lookup",
    "Verif.Plugins.C56_add",
    "Verif.Plugins.C56_types",
    "Verif.Plugins.C56_destroy",
    "Verif.Plugins.C56_path",
    "Verif.Plugins.C56_default_path",
    "Verif.Plugins.C56_trailing_colon_counterexample",
    "Verif.Plugins.C56_leak_counterexample",
    "Verif.Plugins.C56_twice_counterexample"
   ],
   "note": "Findings: a path that ends in a colon, or is empty, makes the constructor throw (C56_trailing_colon_counterexample: find_last_of is compared with length() instead of length()-1); refused plugins are leaked (C56_leak_counterexample); a definition plugin added twice is deleted twice (C56_twice_counterexample)."
  },
  {
   "property": "C57",
   "status": "proved",
   "theorems": [
    "Verif.LayoutGraph.C57_tree",
    "Verif.LayoutGraph.C57_layout",
    "Verif.LayoutGraph.C57_terminates",
    "Verif.LayoutGraph.C57_recursive",
    "Verif.LayoutGraph.C57_element_layout",
    "Verif.LayoutGraph.C57_vector_creation",
    "Verif.LayoutGraph.C57_creation_counterexample",
    "Verif.LayoutGraph.C57_recursive_counterexample",
    "Verif.LayoutGraph.C57_stale_counterexample"
   ],
   "note": "Proved for the conditions in the statement. C57_recursive_counterexample shows that for a structure with a vector of itself layout_of does not end (rather than throwing); C57_stale_counterexample shows a vector whose kept element layout is stale after Registry::resize."
  },
  {
   "property": "C58",
   "status": "proved",
   "theorems": [
    "Verif.RegistryIter.C58_names",
    "Verif.RegistryIter.C58_types",
    "Verif.RegistryIter.C58_size"
   ],
   "note": "Proved for all reachable registries (Reachable of C21: any sequence of calls, types created and modified in between) and all prefixes. The block must not erase entries during the enumeration (not modelled)."
  },
  {
   "property": "C59",
   "status": "proved",
   "theorems": [
    "Verif.RubyRegistry.C59_clear",
    "Verif.RubyRegistry.C59_free",
    "Verif.RubyRegistry.C59_removed",
    "Verif.RubyRegistry.C59_class",
    "Verif.RubyRegistry.C59_foreign_counterexample"
   ],
   "note": "Proved for all histories in which remove is called with types of the same registry (registered or taken out before) and types that were taken out are not added again (no function does this). With a type of another registry both registries delete it: C59_foreign_counterexample."
  },
  {
   "property": "C60",
   "status": "partial",
   "theorems": [
    "Verif.RubyNames.C60_importers_agree",
    "Verif.RubyNames.C60_nested_counterexample",
    "Verif.RubyNames.C60_empty_counterexample",
    "Verif.RubyNames.C60_suffix_counterexample",
    "Verif.RubyNames.C60_letter_counterexample",
    "Verif.RubyNames.C60_to_typelib",
    "Verif.RubyNames.C60_to_cxx",
    "Verif.RubyNames.C60_round_trip",
    "Verif.RubyNames.C60_injective",
    "Verif.RubyNames.C60_parse",
    "Verif.RubyNames.C60_parse_typelib",
    "Verif.RubyNames.C60_parse_plain",
    "Verif.RubyNames.C60_first",
    "Verif.RubyNames.C60_last"
   ],
   "note": "parse_template fails on classes inside templates and on empty argument lists, one-letter names differ between the two importers (counterexample theorems); everything else is proved"
  },
  {
   "property": "C61",
   "status": "partial",
   "theorems": [
    "Verif.RubyBuilder.C61_compound",
    "Verif.RubyBuilder.C61_automatic",
    "Verif.RubyBuilder.C61_enum",
    "Verif.RubyBuilder.C61_simple",
    "Verif.RubyBuilder.C61_alias",
    "Verif.RubyBuilder.C61_alias_taken_counterexample",
    "Verif.RubyBuilder.C61_negative_counterexample",
    "Verif.RubyBuilder.C61_overlap_counterexample",
    "Verif.RubyBuilder.C61_enum_twice_counterexample",
    "Verif.RubyBuilder.C61_foreign_counterexample"
   ],
   "note": "false for negative offsets, symbols given two values, aliases on taken names and types of other registries (counterexample theorems); proved for everything else"
  },
  {
   "property": "C62",
   "status": "partial",
   "theorems": [
    "Verif.RubyOptions.C62_options",
    "Verif.RubyOptions.C62_hash_counterexample",
    "Verif.RubyOptions.C62_same_name_counterexample"
   ],
   "note": "proved for options whose names differ as strings and whose values are scalars, arrays of scalars or arrays of hashes; false for a hash outside an array (C62_hash_counterexample) and for equal names (C62_same_name_counterexample)"
  },
  {
   "property": "C63",
   "status": "partial",
   "theorems": [
    "Verif.RubyAccessor.C63_each",
    "Verif.RubyAccessor.C63_terminates",
    "Verif.RubyAccessor.C63_recursive_counterexample",
    "Verif.RubyAccessor.C63_concat",
    "Verif.RubyAccessor.C63_same_name_counterexample"
   ],
   "note": "proved for types that do not contain themselves and whose compounds have distinct field names; false otherwise (C63_recursive_counterexample, C63_same_name_counterexample)"
  },
  {
   "property": "C64",
   "status": "partial",
   "theorems": [
    "Verif.RubyDeps.C64_first",
    "Verif.RubyDeps.C64_sound",
    "Verif.RubyDeps.C64_acyclic",
    "Verif.RubyDeps.C64_terminates",
    "Verif.RubyDeps.C64_order_counterexample"
   ],
   "note": "termination and soundness for all histories; completeness for first calls, and for all histories if the graph has no cycles; with cycles later calls may lack types (C64_order_counterexample)"
  },
  {
   "property": "C65",
   "status": "partial",
   "theorems": [
    "Verif.RubyBytes.C65_of_size",
    "Verif.RubyBytes.C65_of_size_padding_counterexample",
    "Verif.RubyBytes.C65_string",
    "Verif.RubyBytes.C65_string_round_trip",
    "Verif.RubyBytes.C65_packed_container",
    "Verif.RubyBytes.C65_packed_array",
    "Verif.RubyBytes.C65_pack_code",
    "Verif.RubyBytes.C65_of_size_garbage_counterexample",
    "Verif.RubyBytes.C65_string_counterexample"
   ],
   "note": "of_size: proved when the last byte of the element type is not padding; false otherwise (raises for plain elements, or silently builds other elements). Strings: the round trip keeps exactly the strings of one-byte characters, others are cut. Packed arrays and containers of numbers: proved. Base64 and String#unpack are not modelled beyond cutting in pieces of the size of the element."
  },
  {
   "property": "C66",
   "status": "partial",
   "theorems": [
    "Verif.Clang.Cex.C66_bases_counterexample",
    "Verif.Clang.Cex.C66_bitfield_counterexample",
    "Verif.Clang.Cex.C66_enum_counterexample",
    "Verif.Clang.Cex.C66_array_counterexample",
    "Verif.Clang.Cex.C66_recursion_counterexample",
    "Verif.Clang.Cex.C66_shadow_counterexample",
    "Verif.Clang.Cex.C66_private_counterexample",
    "Verif.Clang.Cex.C66_allocator_counterexample",
    "Verif.Clang.Cex.C66_union_counterexample",
    "Verif.Clang.C66_import_partial",
    "Verif.Clang.C66_import_more_partial",
    "Verif.Clang.C66_complete_partial",
    "Verif.Clang.C66_ends_partial",
    "Verif.Clang.C66_hidden",
    "Verif.Clang.C66_container_names"
   ],
   "note": "proved for programs with bases at offset 0, no bit-fields, enums of 32 bits, and for which names mean one type each (Supported, Names); the import is shown to end when types are not nested in themselves, normally or by an exception. False otherwise: bases at other offsets, bit-fields, other enums, recursive classes, two arrays of the same number type (counterexample theorems)"
  },
  {
   "property": "C67",
   "status": "partial",
   "theorems": [
    "Verif.RubyConverted.Cex.C67_set_counterexample",
    "Verif.RubyConverted.Cex.C67_get_counterexample",
    "Verif.RubyConverted.Cex.C67_raw_set_counterexample",
    "Verif.RubyConverted.Cex.C67_from_buffer_counterexample",
    "Verif.RubyConverted.Cex.C67_part_counterexample",
    "Verif.RubyConverted.Cex.C67_dup_counterexample",
    "Verif.RubyConverted.Cex.C67_nil_counterexample",
    "Verif.RubyConverted.C67_accessors_partial",
    "Verif.RubyConverted.C67_bytes_partial"
   ],
   "note": "Proved for programs that go through the accessors (fields and parts), with to_byte_array, ==, copy, dup and assignment, at any nesting and for any conversions that can be undone. The full claim is false of the code when value['field'], raw accessors or from_buffer are mixed with accessors (7 counterexamples); sharing of one assigned object by two values is not modelled."
  },
  {
   "property": "C68",
   "status": "partial",
   "theorems": [
    "Verif.RubyCustom.C68_declarations",
    "Verif.RubyCustom.C68_classes",
    "Verif.RubyCustom.C68_class_partial",
    "Verif.RubyCustom.C68_stable",
    "Verif.RubyCustom.C68_recursive_counterexample",
    "Verif.RubyCustom.C68_terminates",
    "Verif.RubyCustom.C68_array_override_counterexample",
    "Verif.RubyCustom.C68_from_array_counterexample",
    "Verif.RubyCustom.C68_number_counterexample",
    "Verif.RubyCustom.C68_condition_counterexample",
    "Verif.RubyCustom.C68_late_counterexample"
   ],
   "note": "Proved for all histories: which declarations apply, the content of every class, stability, which classes exist, termination. The full claim is false of the code: declared conversions of arrays/containers with converted elements and declared conversions from Array are overridden by the defaults, conversions of numbers are not counted, the condition of convert_to_ruby(key, if:) is lost, and the class of a type recursive through containers cannot be made (6 counterexamples)."
  },
  {
   "property": "C69",
   "status": "partial",
   "theorems": [
    "Verif.RubySimple.C69_enum_container_counterexample",
    "Verif.RubySimple.C69_enum_array",
    "Verif.RubySimple.C69_undeclared_enum_counterexample",
    "Verif.RubySimple.C69_uint64_counterexample",
    "Verif.RubySimple.C69_string_counterexample",
    "Verif.RubySimple.C69_json_counterexample",
    "Verif.RubySimple.C69_fields_array",
    "Verif.RubySimple.C69_integer",
    "Verif.RubySimple.C69_roundtrip_partial",
    "Verif.RubySimple.C69_injective",
    "Verif.RubySimple.C69_representable",
    "Verif.RubySimple.C69_valid",
    "Verif.RubySimple.C69_hash",
    "Verif.RubySimple.C69_json",
    "Verif.RubySimple.C69_string_floats",
    "Verif.RubySimple.C69_json_finite"
   ],
   "note": "The claim without a condition on the value is false: containers of enumerations cannot be filled from Ruby objects, undeclared enumeration values become the empty string, uint64_t of 2^63 or more are refused, strings with multi-byte characters are truncated (C69_*_counterexample). C69_roundtrip_partial proves that the round trip succeeds exactly for the values where none of this occurs. The other parts of the claim are proved in full (C69_representable, C69_valid, C69_hash, C69_json, C69_json_finite, C69_injective)."
  },
  {
   "property": "C70",
   "status": "partial",
   "theorems": [
    "Verif.RubyExport.C70_own_name_counterexample",
    "Verif.RubyExport.C70_alias_counterexample",
    "Verif.RubyExport.C70_removed_counterexample",
    "Verif.RubyExport.C70_relaxed_counterexample",
    "Verif.RubyExport.C70_once_counterexample",
    "Verif.RubyExport.C70_wrong_namespace_counterexample",
    "Verif.RubyExport.C70_identity_counterexample",
    "Verif.RubyExport.C70_filter_counterexample",
    "Verif.RubyExport.C70_relaxed_partial",
    "Verif.RubyExport.C70_path_partial",
    "Verif.RubyExport.C70_relaxed_only_partial",
    "Verif.RubyExport.C70_relaxed_all_partial"
   ],
   "note": "Full claim for lookups by methods, without aliases and without types exported as other types (C70_path_partial); for the first relaxed lookup: the direct candidates are found (C70_relaxed_partial), nothing but a type or a namespace whose name the constant stands for is found (C70_relaxed_only_partial), and an exception means that there is no such type (C70_relaxed_all_partial). The unrestricted claim is false of the code: see the eight C70_*_counterexample theorems."
  },
  {
   "property": "C71",
   "status": "partial",
   "theorems": [
    "Verif.Gccxml.Cex.C71_list_counterexample",
    "Verif.Gccxml.Cex.C71_tree_counterexample",
    "Verif.Gccxml.Cex.C71_enum_size_counterexample",
    "Verif.Gccxml.Cex.C71_enum_abort_counterexample",
    "Verif.Gccxml.Cex.C71_bitfield_counterexample",
    "Verif.Gccxml.Cex.C71_array_counterexample",
    "Verif.Gccxml.Cex.C71_base_counterexample",
    "Verif.Gccxml.Cex.C71_hidden_member_counterexample",
    "Verif.Gccxml.Cex.C71_history_counterexample",
    "Verif.Gccxml.C71_ends_partial",
    "Verif.Gccxml.C71_sound_partial",
    "Verif.Gccxml.C71_complete_partial"
   ],
   "note": "Proved for programs with no bit-fields inside bytes, enums of 32 bits, classes whose members all have different names and in which names mean one type each (Supported, Meaning). False otherwise: enums of other sizes, bit-fields, hidden members of bases; the import is aborted by recursive structures, empty enums and others (C71_*_counterexample theorems). Termination (C71_ends_partial) is that of the recursion on the nodes, for the same programs, whose pointers, arrays, qualifiers and template arguments are nested to a finite depth."
  },
  {
   "property": "C72",
   "status": "partial",
   "theorems": [
    "Verif.Cast.C72_vector_counterexample",
    "Verif.Cast.C72_equality_counterexample",
    "Verif.Cast.C72_abort_counterexample",
    "Verif.Cast.C72_invalidated_counterexample",
    "Verif.Cast.C72_overrun_counterexample",
    "Verif.Cast.C72_copy_partial",
    "Verif.Cast.C72_compare_partial",
    "Verif.Cast.C72_copy_equal_partial",
    "Verif.Cast.C72_compare_symmetric_partial",
    "Verif.Cast.C72_compare_transitive_partial",
    "Verif.Cast.C72_refused",
    "Verif.Cast.C72_compare_no_layout",
    "Verif.Cast.C72_cast_partial",
    "Verif.Cast.C72_dup_partial"
   ],
   "note": "Copy, comparison, cast and dup are proved for all pairs of compatible types of any nesting, whatever the trailing padding of the structures involved, with exact contents, frame, symmetry, transitivity and copy-then-equal; refusals are proved exactly. Missing because false of the code (counterexample theorems): containers whose elements differ in size (a vector with a fraction of an element), types with pointers (copy and dup end the process, the exception is not caught), invalidated values (compared through a null pointer), casts to a larger type (the value is larger than its memory), == raises ArgumentError instead of answering false, one way round only for enums."
  },
  {
   "property": "C73",
   "status": "partial",
   "theorems": [
    "Verif.Container.C73_cex_push_own",
    "Verif.Container.C73_cex_each_clear",
    "Verif.Container.C73_cex_number_object",
    "Verif.Container.C73_cex_negative_slice",
    "Verif.Container.C73_cex_big_size",
    "Verif.Container.C73_cex_big_hang",
    "Verif.Container.C73_cex_concat_prefix",
    "Verif.Container.C73_each_partial",
    "Verif.Container.C73_string_partial",
    "Verif.Container.C73_cex_string_erase",
    "Verif.Container.C73_cex_string_delete_if",
    "Verif.Container.C73_objects_partial",
    "Verif.Container.C73_objects_history_partial",
    "Verif.Container.C73_own_room_partial",
    "Verif.Container.C73_own_full_partial",
    "Verif.Container.C73_call_partial",
    "Verif.Container.C73_history_partial"
   ],
   "note": "The full claim is false of the code, so it is proved with conditions: every history of calls whose arguments are values of the element type (or are refused) refines the same history on an array, up to the first failed allocation (C73_call_partial, C73_history_partial), for allocations that keep the number of elements below 2^31; elements of the vector itself may be appended if they are given as numbers or symbols, or if the buffer has room (C73_own_room_partial), and reading freed memory is exactly what happens otherwise (C73_own_full_partial); each may be given a block that reads, replaces and appends (C73_each_partial). Counterexamples: push of an own element that moves the buffer, a block of each that empties the vector, numbers that become objects after a slice or raw_get, slices of negative length, sizes of 2^31 or more (negative, and appends that never end), concat that is not undone when an element is refused, erase and delete_if on strings, which remove nothing."
  },
  {
   "property": "C74",
   "status": "partial",
   "theorems": [
    "Verif.PLoad.C74_cex_thread_left",
    "Verif.PLoad.C74_cex_swallowed",
    "Verif.PLoad.C74_cex_half_merged",
    "Verif.PLoad.C74_cex_order",
    "Verif.PLoad.C74_return_partial",
    "Verif.PLoad.C74_raise_partial",
    "Verif.PLoad.C74_error_not_lost",
    "Verif.PLoad.C74_at_most_once",
    "Verif.PLoad.C74_bounded",
    "Verif.PLoad.C74_no_deadlock",
    "Verif.PLoad.C74_ends",
    "Verif.PLoad.C74_parallelism",
    "Verif.PLoad.C74_tokens",
    "Verif.PLoad.C74_sequential_partial"
   ],
   "note": "Proved for all interleavings, numbers of threads, outcomes and token pools: returning means every file parsed, converted and merged exactly once (C74_return_partial, no swallowed exception), failures are never lost and leave the registry untouched before the merges (C74_error_not_lost, C74_raise_partial), no deadlock (C74_no_deadlock, C74_ends), bounded runs (C74_bounded), parallelism and token balance. Missing because false of the code: a ThreadError/StopIteration raised by a tool is swallowed and files are skipped silently (C74_cex_swallowed); a failing load can leave the registry thread blocked for ever (C74_cex_thread_left); a failing merge leaves the earlier merges in place (C74_cex_half_merged); the merge order depends on the schedule (C74_cex_order)."
  },
  {
   "property": "C75",
   "status": "partial",
   "theorems": [
    "Verif.Value.C75_any_stream",
    "Verif.Value.C75_fd",
    "Verif.Value.C75_fd_returns",
    "Verif.Value.C75_file_partial",
    "Verif.Value.C75_ostream",
    "Verif.Value.C75_load_from",
    "Verif.Value.C75_history",
    "Verif.Value.C75_history_crash",
    "Verif.Value.C75_cex_file",
    "Verif.Value.C75_cex_short",
    "Verif.Value.C75_cex_ostream"
   ],
   "note": "Proved for every stream, value and behaviour of the system: the bytes and their order (any_stream), file descriptors in full, ostreams (received a beginning; all unless bad), reading several values back, also after an interrupted dump. The claim is false of FILE* (the result of fwrite is ignored: C75_cex_file) and of ostreams (dump returns although nothing was written: C75_cex_ostream); short writes are raised as errors instead of being continued (C75_cex_short)."
  },
  {
   "property": "C76",
   "status": "partial",
   "theorems": [
    "Verif.Docs.C76_cex_wrap",
    "Verif.Docs.C76_cex_line",
    "Verif.Docs.C76_cex_joined",
    "Verif.Docs.C76_cex_code",
    "Verif.Docs.C76_cex_nostar",
    "Verif.Docs.C76_cex_ends",
    "Verif.Docs.C76_cex_meta",
    "Verif.Docs.C76_comment_partial",
    "Verif.Docs.C76_none_partial",
    "Verif.Docs.C76_local_partial",
    "Verif.Docs.C76_ends",
    "Verif.Docs.C76_metadata_partial"
   ],
   "note": "Proved for every file in which some code precedes the comment: the text (all comment styles, indentations, blank lines), the line of the declaration, the metadata, no comment no documentation, independence of the rest of the file; totality for every file and line. The claim is false at the beginning of a file, where the search goes on at its end (C76_cex_wrap, C76_cex_line), and when the comment is not the only one before the declaration or has lines without a star (C76_cex_joined, _code, _nostar, _ends)."
  },
  {
   "property": "C77",
   "status": "partial",
   "theorems": [
    "Verif.LoadFilter.C77_cex_basic",
    "Verif.LoadFilter.C77_filtered_partial"
   ],
   "note": "C77_filtered_partial proves everything but that typedefs of standard types are returned, which is false of the code (C77_cex_basic). The registry is one whose derived names are complete (Propagates) and whose types are Copyable, as in C29 and C30."
  },
  {
   "property": "C78",
   "status": "partial",
   "theorems": [
    "Verif.MergeMeta.C78_alias_counterexample",
    "Verif.MergeMeta.C78_source_counterexample",
    "Verif.MergeMeta.C78_same_name_counterexample",
    "Verif.MergeMeta.C78_merge_partial",
    "Verif.MergeMeta.C78_kept_partial",
    "Verif.MergeMeta.C78_minimal_partial"
   ],
   "note": "Proved for merges whose success C29 guarantees (agreeing definitions, no shared objects), for minimal(name); the source_id key is excluded because it can end with two values while the source stays one (C78_source_counterexample); a type also named by an alias of the destination that the source uses for another type of the same structure gets the other type's metadata (C78_alias_counterexample), and a field whose name an earlier field has gets the metadata of the first one (C78_same_name_counterexample)."
  },
  {
   "property": "C79",
   "status": "partial",
   "theorems": [
    "Verif.RubyMeta.C79_history_partial",
    "Verif.RubyMeta.C79_each_partial",
    "Verif.RubyMeta.C79_add_rejects",
    "Verif.RubyMeta.C79_set_counterexample",
    "Verif.RubyMeta.C79_delete_counterexample",
    "Verif.RubyMeta.C79_nul_counterexample"
   ],
   "note": "Proved for strings without NUL byte, set given strings, clear and delete given at most one key; otherwise false: set with a value that is not a string raises TypeError after removing the key (C79_set_counterexample), delete with two keys silently does nothing (C79_delete_counterexample), strings are cut at the first NUL byte (C79_nul_counterexample). A block of each that changes the object is not modelled."
  },
  {
   "property": "C80",
   "status": "partial",
   "theorems": [
    "Verif.Display.C80_display_partial",
    "Verif.Display.C80_ends_partial",
    "Verif.Display.C80_deterministic",
    "Verif.Display.C80_dump_partial",
    "Verif.Display.C80_size_counterexample",
    "Verif.Display.C80_names_counterexample",
    "Verif.Display.C80_hidden_counterexample"
   ],
   "note": "proved for names without blanks (alias and field names: without newlines) and starting with a slash: a display ends on types that do not contain themselves, is a function of the type, and two types with equal text have equal descriptions (names, categories, sizes of numerics and compounds, symbols, dimensions, offsets, fields); the same for full dumps without source ids. False in general: sizes of opaques, enums, pointers and containers are not shown (C80_size_counterexample), a dump of names repeats the target's name for an alias (C80_names_counterexample), non-persistent entries are left out (C80_hidden_counterexample)"
  },
  {
   "property": "C81",
   "status": "partial",
   "theorems": [
    "Verif.CxxLoad.C81_preprocess_partial",
    "Verif.CxxLoad.C81_unknown",
    "Verif.CxxLoad.C81_clang_counterexample",
    "Verif.CxxLoad.C81_gccxml_counterexample",
    "Verif.CxxLoad.C81_error_counterexample",
    "Verif.CxxLoad.C81_preprocess_counterexample",
    "Verif.CxxLoad.C81_preprocess_gccxml_partial",
    "Verif.CxxLoad.C81_bad_option",
    "Verif.CxxLoad.C81_no_extension",
    "Verif.CxxLoad.C81_castxml_partial",
    "Verif.CxxLoad.C81_gccxml_partial",
    "Verif.CxxLoad.C81_clang_partial",
    "Verif.CxxLoad.C81_dispatch"
   ],
   "note": "proved for castxml (sequential loading; C74 has the threads), for gccxml with castxml: false, for the choice of importers and kinds, for preprocessing with castxml, and for files and defines with clang. False of the code: clang drops include, include_paths and rawflags (C81_clang_counterexample, for all values) and its preprocess raises NoMethodError without include or define (C81_preprocess_counterexample), choosing gccxml runs castxml (C81_gccxml_counterexample), a failure of gccxml raises NameError (C81_error_counterexample)"
  },
  {
   "property": "C82",
   "status": "partial",
   "theorems": [
    "Verif.RubyLayout.C82_contents_partial",
    "Verif.RubyLayout.C82_refused",
    "Verif.RubyLayout.C82_faithful_partial",
    "Verif.RubyLayout.C82_memcpy_counterexample",
    "Verif.RubyLayout.C82_large_counterexample",
    "Verif.RubyLayout.C82_pointers_counterexample"
   ],
   "note": "contents, options, refusals and faithfulness are proved for types with less than 2^63 bytes in all parts; compatible_with_memcpy? always says no, accepted pointers are described as data, and larger sizes appear negative (counterexamples)."
  },
  {
   "property": "C83",
   "status": "partial",
   "theorems": [
    "Verif.RubyHash.C83_contents_partial",
    "Verif.RubyHash.C83_ends_partial",
    "Verif.RubyHash.C83_complete_partial",
    "Verif.RubyHash.C83_recursive_counterexample",
    "Verif.RubyHash.C83_duplicate_counterexample",
    "Verif.RubyHash.C83_ascii_counterexample",
    "Verif.RubyHash.C83_pointer_counterexample",
    "Verif.RubyHash.C83_large_counterexample"
   ],
   "note": "Full claim false: recursive types do not end, equal field names, names that are not ASCII, sizes from 2^62, pointer targets (counterexamples). Proved: under Usual (sizes below 2^62, different ASCII field names) the hash tells everything documented, ends for all non-recursive types, and equal hashes are equal definitions up to pointer targets."
  },
  {
   "property": "C84",
   "status": "partial",
   "theorems": [
    "Verif.ClangMeta.C84_line_partial",
    "Verif.ClangMeta.C84_line_found",
    "Verif.ClangMeta.C84_gccxml_recorded",
    "Verif.ClangMeta.C84_location_partial",
    "Verif.ClangMeta.C84_location_clang_partial",
    "Verif.ClangMeta.C84_unreadable_partial",
    "Verif.ClangMeta.C84_paragraphs_counterexample",
    "Verif.ClangMeta.C84_block_counterexample",
    "Verif.ClangMeta.C84_inline_counterexample",
    "Verif.ClangMeta.C84_blank_counterexample",
    "Verif.ClangMeta.C84_link_counterexample",
    "Verif.ClangMeta.C84_colon_counterexample",
    "Verif.ClangMeta.C84_no_line_counterexample",
    "Verif.ClangMeta.C84_empty_counterexample",
    "Verif.ClangMeta.C84_recorded",
    "Verif.ClangMeta.C84_described",
    "Verif.ClangMeta.C84_lines_partial",
    "Verif.ClangMeta.C84_text_partial",
    "Verif.ClangMeta.C84_doc_unique"
   ],
   "note": "Full claim false: paragraphs run together, other blocks drop the documentation, inline commands, chains of and relative links, paths with a colon, nodes without line, empty lines only (counterexamples). Proved: exactly what is recorded for every declaration and kind of type, all text of paragraphs, commands and verbatim lines is kept in order, lines of a paragraph are kept, the line a definition starts at, locations are read back."
  },
  {
   "property": "C85",
   "status": "partial",
   "theorems": [
    "Verif.RubyEnum.C85_value_of",
    "Verif.RubyEnum.C85_name_of",
    "Verif.RubyEnum.C85_keys_partial",
    "Verif.RubyEnum.C85_keys_true",
    "Verif.RubyEnum.C85_agree_partial",
    "Verif.RubyEnum.C85_shared_counterexample",
    "Verif.RubyEnum.C85_stale_counterexample",
    "Verif.RubyEnum.C85_nul_counterexample",
    "Verif.RubyEnum.C85_truncated_counterexample",
    "Verif.RubyEnum.C85_encoding_counterexample"
   ],
   "note": "value_of and name_of proved for all histories (names without NUL, integers); keys and to_h for histories that leave the returned hash alone and add no symbol after the first call, and in general that what they tell is true (C85_keys_true). False otherwise: see the counterexamples."
  },
  {
   "property": "C86",
   "status": "partial",
   "theorems": [
    "Verif.RubyMethods.C86_names",
    "Verif.RubyMethods.C86_protected_partial",
    "Verif.RubyMethods.C86_accessors_partial",
    "Verif.RubyMethods.C86_converted_partial",
    "Verif.RubyMethods.C86_raw_counterexample",
    "Verif.RubyMethods.C86_overload_counterexample",
    "Verif.RubyMethods.C86_protected_counterexample"
   ],
   "note": "proved for types in which no field is called raw_ plus another field (C86_accessors_partial, C86_converted_partial), and for needed methods that are not raw_ plus a converted field (C86_protected_partial); C86_names without conditions. False otherwise, and methods of every object are replaced: see the counterexamples."
  },
  {
   "property": "C87",
   "status": "partial",
   "theorems": [
    "Verif.RubyMarshal.C87_unknown_option",
    "Verif.RubyMarshal.C87_to_byte_array_partial",
    "Verif.RubyMarshal.C87_round_trip_partial",
    "Verif.RubyMarshal.C87_from_buffer_new_partial",
    "Verif.RubyMarshal.C87_size_partial",
    "Verif.RubyMarshal.C87_size_counterexample",
    "Verif.RubyMarshal.C87_no_layout_counterexample",
    "Verif.RubyMarshal.C87_arbitrary_partial",
    "Verif.RubyMarshal.C87_size_options_counterexample",
    "Verif.RubyMarshal.C87_unmerged_counterexample",
    "Verif.RubyMarshal.C87_empty_counterexample",
    "Verif.RubyMarshal.C87_pointers_copied_counterexample",
    "Verif.RubyMarshal.C87_opaques_copied_counterexample"
   ],
   "note": "The round trip is proved for every combination of options and every type that can be marshalled with them; the full claim is false of the code: vectors of structures without merge_skip_copy and types without layout end the process, marshalling_size ignores options and overflows, pointers and opaques are copied (counterexample theorems). Arbitrary buffers only with default options."
  },
  {
   "property": "C88",
   "status": "partial",
   "theorems": [
    "Verif.RubyFullName.C88_parts",
    "Verif.RubyFullName.C88_full_name",
    "Verif.RubyFullName.C88_distinct",
    "Verif.RubyFullName.C88_template",
    "Verif.RubyFullName.C88_cxx_partial",
    "Verif.RubyFullName.C88_template_counterexample",
    "Verif.RubyFullName.C88_distinct_counterexample",
    "Verif.RubyFullName.C88_relative_counterexample"
   ],
   "note": "Parts, full names and their distinctness are proved for all names; that full_name('::', true) is the C++ name is proved for names without templates and false for templates of built-in types (counterexample). Separators with a backslash, which gsub! interprets, are not modelled."
  },
  {
   "property": "C89",
   "status": "partial",
   "theorems": [
    "Verif.RubyTypeEq.C89_equal",
    "Verif.RubyTypeEq.C89_same_definition_partial",
    "Verif.RubyTypeEq.C89_symmetric_partial",
    "Verif.RubyTypeEq.C89_casts",
    "Verif.RubyTypeEq.C89_casts_layout_partial",
    "Verif.RubyTypeEq.C89_casts_weaker",
    "Verif.RubyTypeEq.C89_not_types",
    "Verif.RubyTypeEq.C89_raises",
    "Verif.RubyTypeEq.C89_raises_iff",
    "Verif.RubyTypeEq.C89_casts_raises",
    "Verif.RubyTypeEq.C89_root_counterexample",
    "Verif.RubyTypeEq.C89_symmetry_counterexample",
    "Verif.RubyTypeEq.C89_derived_counterexample"
   ],
   "note": "Proved: termination and exact meaning on types of registries, same definition without null parts, symmetry without duplicated parts, non-types, exactly when TypeError is raised, casts. False of the code: root classes all equal each other, Type == NumericType is not symmetric, symmetry with duplicated parts, TypeError for NullType and derived classes (counterexamples)."
  },
  {
   "property": "C90",
   "status": "partial",
   "theorems": [
    "Verif.RubyPlugins.C90_quiet",
    "Verif.RubyPlugins.C90_call",
    "Verif.RubyPlugins.C90_loaded",
    "Verif.RubyPlugins.C90_once",
    "Verif.RubyPlugins.C90_retry_partial",
    "Verif.RubyPlugins.C90_lost_counterexample",
    "Verif.RubyPlugins.C90_forced_counterexample",
    "Verif.RubyPlugins.C90_path"
   ],
   "note": "Proved: exactly what a call executes and when it raises, never twice over every history, retry after a gem plugin raised. False of the code: retry for plugins of the path (counterexample over all later histories), forced calls with an unchanged path."
  },
  {
   "property": "C91",
   "status": "partial",
   "theorems": [
    "Verif.RubyResize.C91_request",
    "Verif.RubyResize.C91_resize_partial",
    "Verif.RubyResize.C91_resize_type_partial",
    "Verif.RubyResize.C91_exception",
    "Verif.RubyResize.C91_bad",
    "Verif.RubyResize.C91_negative_counterexample",
    "Verif.RubyResize.C91_twice_counterexample",
    "Verif.RubyResize.C91_unknown_counterexample"
   ],
   "note": "Proved: the request for distinct names and sizes in range, the effect under the conditions of C32, no effect with an exception for unusable entries. Missing or false: the cases of C32, negative sizes, types given twice, unknown names (counterexamples)."
  },
  {
   "property": "C92",
   "status": "partial",
   "theorems": [
    "Verif.RegistryAdd.C92_add_partial",
    "Verif.RegistryAdd.C92_add_succeeds_partial",
    "Verif.RegistryAdd.C92_add_self_partial",
    "Verif.RegistryAdd.C92_add_unknown",
    "Verif.RegistryAdd.C92_not_atomic_counterexample"
   ],
   "note": "Under the conditions of C29 and C30: the registry of the type is Copyable, the receiving one agrees on the types it shares by name and has no alias with the name of a copied type (Receives). Success is proved without aliases; adding a type to its own registry is proved for registries without aliases. That nothing is added on failure is false of the code (C92_not_atomic_counterexample)."
  }
 ]
}