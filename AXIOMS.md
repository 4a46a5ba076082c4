# Axioms

The axioms that each theorem of MANIFEST.json depends on (`#print axioms`; written by tools/mk_axioms.py).

| property | theorem | axioms |
|---|---|---|
| C01 | `Verif.CIDict.C01_history_partial` | propext, Classical.choice, Quot.sound |
| C01 | `Verif.CIDict.C01_init_lookup` | propext, Classical.choice, Quot.sound |
| C01 | `Verif.CIDict.C01_self_conflicting_update_counterexample` | propext |
| C01 | `Verif.CIDict.C01_setdefault_counterexample` | none |
| C01 | `Verif.CIDict.C01_lookups` | propext, Classical.choice, Quot.sound |
| C02 | `Verif.CIDict.C02_init_iff` | propext, Classical.choice, Quot.sound |
| C02 | `Verif.CIDict.C02_setItem` | propext, Classical.choice, Quot.sound |
| C02 | `Verif.CIDict.C02_update_atomic_partial` | propext, Classical.choice, Quot.sound |
| C02 | `Verif.CIDict.C02_update_not_atomic_counterexample` | none |
| C02 | `Verif.CIDict.C02_update` | propext, Classical.choice, Quot.sound |
| C03 | `Verif.VList.C03_type_invariant` | propext, Quot.sound |
| C03 | `Verif.VList.C03_reject` | propext, Classical.choice, Quot.sound |
| C03 | `Verif.VList.C03_iadd_counterexample` | propext |
| C03 | `Verif.VList.C03_slice_counterexample` | propext |
| C04 | `Verif.VList.C04_failure_atomic` | propext |
| C04 | `Verif.VList.C04_init_partial` | propext, Classical.choice, Quot.sound |
| C04 | `Verif.VList.C04_append` | propext, Quot.sound |
| C04 | `Verif.VList.C04_extend_partial` | propext, Classical.choice, Quot.sound |
| C04 | `Verif.VList.C04_insert` | propext, Quot.sound |
| C04 | `Verif.VList.C04_setItem` | propext, Quot.sound |
| C04 | `Verif.VList.C04_setSlice` | propext, Quot.sound |
| C04 | `Verif.VList.C04_raises` | propext, Quot.sound |
| C04 | `Verif.VList.C04_insert_outside` | propext, Quot.sound |
| C04 | `Verif.VList.C04_first_failure` | propext, Classical.choice, Quot.sound |
| C04 | `Verif.VList.C04_oneShot_dropped` | propext, Quot.sound |
| C05 | `Verif.Bounds.C05_real_contains` | propext |
| C05 | `Verif.Bounds.C05_decreasing_unit_fails` | propext, Classical.choice, Quot.sound |
| C06 | `Verif.Bounds.C06_contains` | propext, Quot.sound |
| C07 | `Verif.Bounds.C07_refl` | propext, Quot.sound |
| C07 | `Verif.Bounds.C07_trans` | propext, Classical.choice, Quot.sound |
| C08 | `Verif.Bounds.C08_union_lub` | propext, Quot.sound |
| C08 | `Verif.Bounds.C08_union_succeeds_iff` | propext, Quot.sound |
| C08 | `Verif.Bounds.C08_raises` | propext, Quot.sound |
| C09 | `Verif.Bounds.C09_update_is_union_partial` | propext, Quot.sound |
| C09 | `Verif.Bounds.C09_update_mol_partial` | propext |
| C09 | `Verif.Bounds.C09_update_mol_counterexample` | propext |
| C10 | `Verif.Bounds.C10_step` | propext, Classical.choice, Quot.sound |
| C10 | `Verif.Bounds.C10_history` | propext, Classical.choice, Quot.sound |
| C10 | `Verif.Bounds.C10_real_init` | propext |
| C10 | `Verif.Bounds.C10_int_init` | propext, Quot.sound |
| C10 | `Verif.Bounds.C10_categories_partial` | propext, Quot.sound |
| C10 | `Verif.Bounds.C10_categories_counterexample` | propext |
| C10 | `Verif.Bounds.C10_real_setters` | propext |
| C10 | `Verif.Bounds.C10_int_setters` | propext, Quot.sound |
| C11 | `Verif.Bounds.C11_dispatch` | propext |
| C12 | `Verif.Bounds.C12_bounds_are_support` | propext, Classical.choice, Quot.sound |
| C12 | `Verif.Bounds.C12_smallest` | propext, Classical.choice, Quot.sound |
| C12 | `Verif.Bounds.C12_has_bounds_partial` | propext, Quot.sound |
| C12 | `Verif.Bounds.C12_big_integer_counterexample` | propext, Classical.choice, Quot.sound |
| C12 | `Verif.Bounds.C12_missing_raises` | propext |
| C13 | `Verif.Bounds.C13_accepts_iff_partial` | propext, Classical.choice, Quot.sound |
| C13 | `Verif.Bounds.C13_small_partial` | propext, Classical.choice, Quot.sound |
| C13 | `Verif.Bounds.C13_counterexample` | propext, Classical.choice, Quot.sound |
| C13 | `Verif.Bounds.C13_raises` | propext |
| C13 | `Verif.Bounds.C13_nearest` | propext, Classical.choice, Quot.sound |
| C13 | `Verif.Bounds.C13_representable` | propext, Classical.choice, Quot.sound |
| C13 | `Verif.Bounds.C13_ties` | propext, Quot.sound |
| C13 | `Verif.Bounds.C13_overflow` | propext, Classical.choice, Quot.sound |
| C14 | `Verif.Bounds.C14_conversion` | propext |
| C14 | `Verif.Bounds.C14_containment_unit_free` | propext |
| C14 | `Verif.Bounds.C14_affine_lawful` | propext, Classical.choice, Quot.sound |
| C15 | `Verif.Cache.C15_no_stale` | propext, Quot.sound |
| C15 | `Verif.Cache.C15_no_stale_exact` | propext, Quot.sound |
| C15 | `Verif.Cache.C15_bounded` | propext, Quot.sound |
| C15 | `Verif.Cache.C15_type_counterexample` | propext, Quot.sound |
| C15 | `Verif.Cache.C15_interleaving_counterexample` | none |
| C16 | `Verif.Mangle.C16_terminates` | propext, Quot.sound |
| C16 | `Verif.Mangle.C16_unchanged` | propext, Quot.sound |
| C16 | `Verif.Mangle.C16_roundtrip_partial` | propext, Classical.choice, Quot.sound |
| C16 | `Verif.Mangle.C16_roundtrip_unit_partial` | propext, Classical.choice, Quot.sound |
| C16 | `Verif.Mangle.C16_distinct_partial` | propext, Classical.choice, Quot.sound |
| C16 | `Verif.Mangle.C16_leading_dot_counterexample` | propext, Quot.sound |
| C16 | `Verif.Mangle.C16_two_factors_counterexample` | propext, Quot.sound |
| C16 | `Verif.Mangle.C16_sign_counterexample` | propext, Quot.sound |
| C16 | `Verif.Mangle.C16_exponent_counterexample` | propext, Quot.sound |
| C16 | `Verif.Mangle.C16_trailing_dot_counterexample` | propext, Quot.sound |
| C16 | `Verif.Mangle.C16_expression` | propext, Classical.choice, Quot.sound |
| C16 | `Verif.Mangle.C16_expression_mangle` | propext, Quot.sound |
| C17 | `Verif.Strings.C17_duplicate_raises` | propext, Quot.sound |
| C17 | `Verif.Strings.C17_lookup` | propext, Quot.sound |
| C17 | `Verif.Strings.C17_own_value_partial` | propext, Quot.sound |
| C17 | `Verif.Strings.C17_synonym_partial` | propext, Quot.sound |
| C17 | `Verif.Strings.C17_call` | propext, Quot.sound |
| C17 | `Verif.Strings.C17_synonym_counterexample` | propext |
| C17 | `Verif.Strings.C17_whitespace_counterexample` | propext |
| C18 | `Verif.Strings.C18_prefix_and_idempotent_partial` | propext, Classical.choice, Quot.sound |
| C18 | `Verif.Strings.C18_body_partial` | propext, Classical.choice, Quot.sound |
| C18 | `Verif.Strings.C18_other` | propext, Quot.sound |
| C18 | `Verif.Strings.C18_prefix_counterexample` | propext, Classical.choice, Quot.sound |
| C18 | `Verif.Strings.C18_body_counterexample` | propext, Classical.choice, Quot.sound |
| C19 | `Verif.Strings.C19_expression` | propext, Quot.sound |
| C19 | `Verif.Strings.C19_accept_iff` | propext, Quot.sound |
| C19 | `Verif.Strings.C19_bounds` | propext, Quot.sound |
| C19 | `Verif.Strings.C19_missing` | propext, Quot.sound |
| C20 | `Verif.Dist.C20_uniform_integer` | propext, Quot.sound |
| C20 | `Verif.Dist.C20_uniform_integer_atomic` | propext, Quot.sound |
| C20 | `Verif.Dist.C20_uniform_integer_stores` | none |
| C20 | `Verif.Dist.C20_uniform_integer_raises` | propext, Quot.sound |
| C20 | `Verif.Dist.C20_whole_numbers` | propext, Quot.sound |
| C20 | `Verif.Dist.C20_discrete_categorical` | propext, Classical.choice, Quot.sound |
| C20 | `Verif.Dist.C20_discrete_categorical_history` | propext, Classical.choice, Quot.sound |
| C20 | `Verif.Dist.C20_uniform_real_init_partial` | propext |
| C20 | `Verif.Dist.C20_uniform_real_partial` | propext, Quot.sound |
| C20 | `Verif.Dist.C20_uniform_real_counterexample` | propext, Quot.sound |
| C21 | `Verif.Level.C21_scoped_partial` | propext |
| C21 | `Verif.Level.C21_restores_partial` | propext |
| C21 | `Verif.Level.C21_bad_level` | propext |
| C21 | `Verif.Level.C21_raise_counterexample` | propext |
| C22 | `Verif.Attr.C22_fatal_history` | propext, Classical.choice, Quot.sound |
| C22 | `Verif.Attr.C22_rejected_unchanged` | propext |
| C22 | `Verif.Attr.C22_warning_partial` | propext, Classical.choice, Quot.sound |
| C22 | `Verif.Attr.C22_fatal_decides` | propext, Classical.choice, Quot.sound |
| C22 | `Verif.Attr.C22_ignore` | propext |
| C22 | `Verif.Attr.C22_none_other` | propext |
| C22 | `Verif.Attr.C22_link_counterexample` | propext |
| C22 | `Verif.Attr.C22_incomplete_counterexample` | propext |
| C23 | `Verif.Template.C23_warning_decides` | propext, Classical.choice, Quot.sound |
| C23 | `Verif.Template.C23_fatal_partial` | propext, Classical.choice, Quot.sound |
| C23 | `Verif.Template.C23_unlisted_partial` | propext, Quot.sound |
| C23 | `Verif.Template.C23_no_template` | propext |
| C23 | `Verif.Template.C23_fatal_decides` | propext, Classical.choice, Quot.sound |
| C23 | `Verif.Template.C23_refused` | propext |
| C23 | `Verif.Template.C23_template_counterexample` | propext, Quot.sound |
| C23 | `Verif.Template.C23_duplicate_counterexample` | propext, Quot.sound |
| C23 | `Verif.Template.C23_link_counterexample` | propext |
| C24 | `Verif.Attr.C24_fraction_fatal` | propext, Classical.choice, Quot.sound |
| C24 | `Verif.Attr.C24_fraction_warning` | propext, Classical.choice, Quot.sound |
| C24 | `Verif.Attr.C24_absolute_fatal_fails` | propext, Quot.sound |
| C24 | `Verif.Attr.C24_absolute_partial` | propext, Classical.choice, Quot.sound |
| C24 | `Verif.Attr.C24_atomic` | propext, Quot.sound |
| C25 | `Verif.Template.C25_raises` | propext, Classical.choice, Quot.sound |
| C25 | `Verif.Template.C25_content` | propext, Quot.sound |
| C25 | `Verif.Template.C25_container` | propext, Quot.sound |
| C25 | `Verif.Template.C25_history` | propext, Quot.sound |
| C25 | `Verif.Template.C25_decides_partial` | propext, Classical.choice, Quot.sound |
| C25 | `Verif.Template.C25_bare_pair` | propext, Quot.sound |
| C25 | `Verif.Template.C25_single` | propext |
| C25 | `Verif.Template.C25_one_shot_counterexample` | propext, Quot.sound |
| C25 | `Verif.Template.C25_wrong_class_counterexample` | propext |
| C26 | `Verif.Heap.C26_linked_partial` | propext, Classical.choice, Quot.sound |
| C26 | `Verif.Heap.C26_listed_partial` | propext, Classical.choice, Quot.sound |
| C26 | `Verif.Heap.C26_members` | propext, Quot.sound |
| C26 | `Verif.Heap.C26_failed_assignment_counterexample` | propext |
| C26 | `Verif.Heap.C26_twin_counterexample` | propext |
| C27 | `Verif.Heap.C27_output` | propext, Classical.choice, Quot.sound |
| C27 | `Verif.Heap.C27_one_to_one_partial` | propext, Classical.choice, Quot.sound |
| C27 | `Verif.Heap.C27_stealing_counterexample` | propext |
| C27 | `Verif.Heap.C27_failed_assignment_counterexample` | propext |
| C27 | `Verif.Heap.C27_failed_construction_counterexample` | propext |
| C28 | `Verif.Heap.C28_linked_partial` | propext, Classical.choice, Quot.sound |
| C28 | `Verif.Heap.C28_listed_partial` | propext, Classical.choice, Quot.sound |
| C28 | `Verif.Heap.C28_members` | propext, Quot.sound |
| C28 | `Verif.Heap.C28_failed_assignment_counterexample` | propext |
| C28 | `Verif.Heap.C28_twin_counterexample` | propext |
| C29 | `Verif.Heap.C29_references` | propext, Quot.sound |
| C29 | `Verif.Heap.C29_rejected` | propext, Quot.sound |
| C29 | `Verif.Heap.C29_rejected_linked` | propext, Quot.sound |
| C30 | `Verif.Heap.C30_attached` | propext, Quot.sound |
| C30 | `Verif.Heap.C30_renamed` | propext, Quot.sound |
| C30 | `Verif.Heap.C30_detached` | propext, Quot.sound |
| C30 | `Verif.Heap.C30_loaded` | propext, Quot.sound |
| C30 | `Verif.Heap.C30_unset` | propext |
| C30 | `Verif.Heap.C30_made` | propext, Quot.sound |
| C31 | `Verif.Link.C31_to_link` | propext, Classical.choice, Quot.sound |
| C31 | `Verif.Link.C31_to_link_raises_iff` | propext, Classical.choice, Quot.sound |
| C31 | `Verif.Link.C31_to_link_valueError` | propext, Classical.choice, Quot.sound |
| C31 | `Verif.Link.C31_from_entity` | propext, Classical.choice, Quot.sound |
| C32 | `Verif.Link.C32_link_entity_iff` | propext, Classical.choice, Quot.sound |
| C32 | `Verif.Link.C32_link_entity_total` | propext, Classical.choice, Quot.sound |
| C32 | `Verif.Link.C32_symmetric_link_partial` | propext, Classical.choice, Quot.sound |
| C32 | `Verif.Link.C32_none_id_counterexample` | propext, Quot.sound |
| C32 | `Verif.Link.C32_pair_entity_iff` | propext, Classical.choice, Quot.sound |
| C32 | `Verif.Link.C32_other_tuples` | propext |
| C32 | `Verif.Link.C32_link_tuple_iff` | propext |
| C32 | `Verif.Link.C32_hash` | propext |
| C32 | `Verif.Link.C32_not_transitive_counterexample` | propext, Classical.choice, Quot.sound |
| C32 | `Verif.Link.C32_pair_raises` | propext |
| C32 | `Verif.Equal.C32_values` | propext, Classical.choice, Quot.sound |
| C32 | `Verif.Equal.C32_link_values` | propext, Classical.choice, Quot.sound |
| C33 | `Verif.Equal.C33_terminates_partial` | propext, Classical.choice, Quot.sound |
| C33 | `Verif.Equal.C33_answers_partial` | propext, Classical.choice, Quot.sound |
| C33 | `Verif.Equal.C33_plain_cycle_counterexample` | propext, Classical.choice, Quot.sound |
| C34 | `Verif.Equal.C34_symmetric_counterexample` | propext, Classical.choice, Quot.sound |
| C34 | `Verif.Equal.C34_tags_counterexample` | propext, Classical.choice, Quot.sound |
| C34 | `Verif.Equal.C34_isomorphic_counterexample` | propext, Classical.choice, Quot.sound |
| C34 | `Verif.Equal.C34_isomorphic_partial` | propext, Classical.choice, Quot.sound |
| C34 | `Verif.Equal.C34_reflexive` | propext, Classical.choice, Quot.sound |
| C34 | `Verif.Equal.C34_reflexive_answers` | propext, Classical.choice, Quot.sound |
| C34 | `Verif.Equal.C34_sound` | propext, Classical.choice, Quot.sound |
| C34 | `Verif.Equal.C34_objects` | propext, Classical.choice, Quot.sound |
| C34 | `Verif.Equal.C34_containers` | propext, Classical.choice, Quot.sound |
| C35 | `Verif.Substitute.C35_resolves_partial` | propext, Classical.choice, Quot.sound |
| C35 | `Verif.Substitute.C35_index_partial` | propext, Classical.choice, Quot.sound |
| C35 | `Verif.Substitute.C35_collection_partial` | propext, Classical.choice, Quot.sound |
| C35 | `Verif.Substitute.C35_copies_counterexample` | propext, Classical.choice, Quot.sound |
| C35 | `Verif.Substitute.C35_pairs_counterexample` | propext, Classical.choice, Quot.sound |
| C35 | `Verif.Substitute.C35_cycle_counterexample` | propext, Classical.choice, Quot.sound |
| C36 | `Verif.Value.C36_visits_all_once_partial` | propext, Classical.choice, Quot.sound |
| C36 | `Verif.Value.C36_every_graph` | propext, Classical.choice, Quot.sound |
| C36 | `Verif.Value.C36_tuple_with_list_counterexample` | propext, Quot.sound |
| C36 | `Verif.Value.C36_self_containing_list_counterexample` | propext, Quot.sound |
| C36 | `Verif.Value.C36_state` | propext, Classical.choice, Quot.sound |
| C36 | `Verif.Value.C36_agrees` | propext, Quot.sound |
| C37 | `Verif.Value.C37_every_graph` | propext, Classical.choice, Quot.sound |
| C37 | `Verif.Value.C37_collects_all_once_partial` | propext, Classical.choice, Quot.sound |
| C37 | `Verif.Value.C37_results_partial` | propext, Classical.choice, Quot.sound |
| C37 | `Verif.Value.C37_tuple_with_list_counterexample` | propext, Classical.choice, Quot.sound |
| C38 | `Verif.Value.C38_set_uuids_partial` | propext, Classical.choice, Quot.sound |
| C38 | `Verif.Value.C38_raises` | propext, Classical.choice, Quot.sound |
| C38 | `Verif.Value.C38_tuple_with_list_counterexample` | propext, Quot.sound |
| C38 | `Verif.Value.C38_state` | propext, Classical.choice, Quot.sound |
| C39 | `Verif.Substitute.C39_flatten_partial` | propext, Classical.choice, Quot.sound |
| C39 | `Verif.Substitute.C39_no_id` | propext, Classical.choice, Quot.sound |
| C39 | `Verif.Substitute.C39_flatten_scope_partial` | propext, Classical.choice, Quot.sound |
| C39 | `Verif.Substitute.C39_chain_counterexample` | propext, Classical.choice, Quot.sound |
| C39 | `Verif.Substitute.C39_case_counterexample` | propext, Classical.choice, Quot.sound |
| C39 | `Verif.Substitute.C39_state_agrees` | propext, Classical.choice, Quot.sound |
| C39 | `Verif.Substitute.C39_state` | propext, Classical.choice, Quot.sound |
| C39 | `Verif.Substitute.C39_scope_state_exact` | propext, Classical.choice, Quot.sound |
| C39 | `Verif.Substitute.C39_scope_state` | propext, Classical.choice, Quot.sound |
| C39 | `Verif.Substitute.C39_ids_stay` | propext, Classical.choice, Quot.sound |
| C40 | `Verif.Substitute.C40_order_partial` | propext, Classical.choice, Quot.sound |
| C41 | `Verif.Substitute.C41_values_partial` | propext, Classical.choice, Quot.sound |
| C41 | `Verif.Substitute.C41_entity_partial` | propext, Classical.choice, Quot.sound |
| C41 | `Verif.Substitute.C41_entity_built_partial` | propext, Classical.choice, Quot.sound |
| C41 | `Verif.Substitute.C41_unlinkable` | propext, Classical.choice, Quot.sound |
| C41 | `Verif.Substitute.C41_pairs_counterexample` | propext, Classical.choice, Quot.sound |
| C41 | `Verif.Substitute.C41_numbers_counterexample` | propext, Classical.choice, Quot.sound |
| C42 | `Verif.Substitute.C42_values_partial` | propext, Classical.choice, Quot.sound |
| C42 | `Verif.Substitute.C42_entity_partial` | propext, Classical.choice, Quot.sound |
| C42 | `Verif.Substitute.C42_collection_partial` | propext, Classical.choice, Quot.sound |
| C42 | `Verif.Substitute.C42_entity_collection_partial` | propext, Classical.choice, Quot.sound |
| C42 | `Verif.Substitute.C42_scope_counterexample` | propext, Classical.choice, Quot.sound |
| C42 | `Verif.Substitute.C42_ambiguous_counterexample` | propext, Classical.choice, Quot.sound |
| C43 | `Verif.Substitute.C43_built_partial` | propext, Classical.choice, Quot.sound |
| C43 | `Verif.Substitute.C43_link_counterexample` | propext, Classical.choice, Quot.sound |
| C43 | `Verif.Substitute.C43_shared_process_counterexample` | propext, Classical.choice, Quot.sound |
| C43 | `Verif.Substitute.C43_tuple_counterexample` | propext, Classical.choice, Quot.sound |
| C43 | `Verif.Substitute.C43_round_trip_partial` | propext, Classical.choice, Quot.sound |
| C44 | `Verif.Substitute.C44_dumps_keeps` | propext, Classical.choice, Quot.sound |
| C44 | `Verif.Substitute.C44_loads_keeps` | propext, Classical.choice, Quot.sound |
| C44 | `Verif.Substitute.C44_state_agrees` | propext, Classical.choice, Quot.sound |
| C44 | `Verif.Substitute.C44_state_exact` | propext, Classical.choice, Quot.sound |
| C44 | `Verif.Substitute.C44_dumps_state` | propext, Classical.choice, Quot.sound |
| C44 | `Verif.Substitute.C44_thin_state` | propext, Classical.choice, Quot.sound |
| C44 | `Verif.Substitute.C44_ids_stay` | propext, Classical.choice, Quot.sound |
| C44 | `Verif.Substitute.C44_loads_agrees` | propext, Classical.choice, Quot.sound |
| C44 | `Verif.Substitute.C44_loads_state` | propext, Classical.choice, Quot.sound |
| C45 | `Verif.Json.C45_links` | propext, Classical.choice, Quot.sound |
| C45 | `Verif.Json.C45_unknown_type` | propext, Classical.choice, Quot.sound |
| C45 | `Verif.Json.C45_no_type` | propext, Classical.choice, Quot.sound |
| C45 | `Verif.Json.C45_extra_fields_partial` | propext, Classical.choice, Quot.sound |
| C45 | `Verif.Json.C45_self_field_counterexample` | propext, Classical.choice, Quot.sound |
| C45 | `Verif.Json.C45_same_id_counterexample` | propext, Classical.choice, Quot.sound |
| C45 | `Verif.Json.C45_same_id_links_counterexample` | propext, Classical.choice, Quot.sound |
| C45 | `Verif.Json.C45_records_fresh` | propext, Classical.choice, Quot.sound |
| C46 | `Verif.Json.C46_dump_build_partial` | propext, Classical.choice, Quot.sound |
| C46 | `Verif.Json.C46_as_dict_build_partial` | propext, Classical.choice, Quot.sound |
| C46 | `Verif.Json.C46_constructor_fields` | propext, Classical.choice, Quot.sound |
| C46 | `Verif.Json.C46_dump_determines` | propext, Classical.choice, Quot.sound |
| C46 | `Verif.Json.C46_type_key_counterexample` | propext, Classical.choice, Quot.sound |
| C46 | `Verif.Json.C46_type_category_counterexample` | propext, Classical.choice, Quot.sound |
| C46 | `Verif.Json.C46_tuple_counterexample` | propext, Classical.choice, Quot.sound |
| C46 | `Verif.Json.C46_dump_build_entities_partial` | propext, Classical.choice, Quot.sound |
| C46 | `Verif.Json.C46_as_dict_build_entity_partial` | propext, Classical.choice, Quot.sound |
| C47 | `Verif.Registry.C47_most_recent` | propext, Classical.choice, Quot.sound |
| C47 | `Verif.Registry.C47_only_from_ancestors` | propext, Classical.choice, Quot.sound |
| C47 | `Verif.Registry.C47_define` | propext, Classical.choice, Quot.sound |
| C47 | `Verif.Registry.C47_mapping_is_a_copy` | propext, Classical.choice, Quot.sound |
| C47 | `Verif.Registry.C47_mapping_contents` | propext, Quot.sound |
| C47 | `Verif.Registry.C47_skip` | propext, Classical.choice, Quot.sound |
| C48 | `Verif.Instance.C48_make_instance` | propext, Classical.choice, Quot.sound |
| C48 | `Verif.Instance.C48_not_a_spec` | propext, Classical.choice, Quot.sound |
| C49 | `Verif.Dependencies.C49_dependencies` | propext, Classical.choice, Quot.sound |
| C50 | `Verif.Builders.C50_make_node` | propext, Classical.choice, Quot.sound |
| C50 | `Verif.Builders.C50_add_edge` | propext, Classical.choice, Quot.sound |
| C50 | `Verif.Builders.C50_add_edge_else` | propext, Classical.choice, Quot.sound |
| C50 | `Verif.Builders.C50_add_edge_raises_partial` | propext, Classical.choice, Quot.sound |
| C50 | `Verif.Builders.C50_add_measurement` | propext, Classical.choice, Quot.sound |
| C50 | `Verif.Builders.C50_add_measurement_else` | propext, Classical.choice, Quot.sound |
| C50 | `Verif.Builders.C50_add_measurement_raises_partial` | propext, Classical.choice, Quot.sound |
| C50 | `Verif.Builders.C50_add_edge_counterexample` | propext, Classical.choice, Quot.sound |
| C50 | `Verif.Builders.C50_add_measurement_counterexample` | propext, Classical.choice, Quot.sound |
| C51 | `Verif.MakeValue.C51_make_value` | propext, Classical.choice, Quot.sound |
| C51 | `Verif.MakeValue.C51_unknown_bounds` | propext, Quot.sound |
| C51 | `Verif.MakeValue.C51_make_attribute` | propext, Classical.choice, Quot.sound |
| C51 | `Verif.MakeValue.C51_make_attribute_fatal` | propext, Classical.choice, Quot.sound |
| C51 | `Verif.MakeValue.C51_unknown_template` | propext, Quot.sound |
| C51 | `Verif.MakeValue.C51_given_value_counterexample` | propext, Quot.sound |
| C51 | `Verif.MakeValue.C51_raises` | propext, Quot.sound |
| C52 | `Verif.Cache.C52_transparent_partial` | propext, Quot.sound |
| C52 | `Verif.Cache.C52_register_counterexample` | propext |
| C53 | `Verif.Mangle.C53_nothing_lost` | propext, Classical.choice, Quot.sound |
| C53 | `Verif.Mangle.C53_unknown_operator` | propext, Quot.sound |
| C53 | `Verif.Mangle.C53_blocks_partial` | propext, Classical.choice, Quot.sound |
| C53 | `Verif.Mangle.C53_signed_group_counterexample` | propext, Classical.choice, Quot.sound |
| C53 | `Verif.Mangle.C53_factor` | propext, Classical.choice, Quot.sound |
| C53 | `Verif.Mangle.C53_refused` | propext, Classical.choice, Quot.sound |
| C53 | `Verif.Mangle.C53_expression_partial` | propext, Classical.choice, Quot.sound |
| C54 | `Verif.History.C54_history_partial` | propext, Classical.choice, Quot.sound |
| C54 | `Verif.History.C54_built_partial` | propext, Classical.choice, Quot.sound |
| C54 | `Verif.History.C54_scope_case_counterexample` | propext, Classical.choice, Quot.sound |
| C55 | `Verif.VList.C55_validate_list_partial` | propext, Classical.choice, Quot.sound |
| C55 | `Verif.VList.C55_validate_str` | propext, Quot.sound |
| C56 | `Verif.Builders.C56_add_attribute` | propext, Quot.sound |
| C56 | `Verif.Builders.C56_lists_stay` | propext, Quot.sound |
| C57 | `Verif.Json.C57_dumps` | propext, Classical.choice, Quot.sound |
| C57 | `Verif.Json.C57_raw_copy_partial` | propext, Classical.choice, Quot.sound |
| C57 | `Verif.Json.C57_no_cycle` | propext, Classical.choice, Quot.sound |
| C57 | `Verif.Json.C57_sharing_counterexample` | propext, Classical.choice, Quot.sound |
| C58 | `Verif.Substitute.C58_copy_equal_partial` | propext, Classical.choice, Quot.sound |
| C58 | `Verif.Substitute.C58_built_partial` | propext, Classical.choice, Quot.sound |
| C58 | `Verif.Substitute.C58_link_counterexample` | propext, Classical.choice, Quot.sound |
| C58 | `Verif.Substitute.C58_tuple_counterexample` | propext, Classical.choice, Quot.sound |
| C59 | `Verif.Substitute.C59_thin_partial` | propext, Classical.choice, Quot.sound |
| C59 | `Verif.Substitute.C59_tuple_counterexample` | propext, Classical.choice, Quot.sound |
| C60 | `Verif.Inplace.C60_shared_process_counterexample` | propext, Classical.choice, Quot.sound |
| C60 | `Verif.Inplace.C60_pairs_counterexample` | propext, Classical.choice, Quot.sound |
| C60 | `Verif.Inplace.C60_state_agrees` | propext, Classical.choice, Quot.sound |
| C60 | `Verif.Inplace.C60_state` | propext, Classical.choice, Quot.sound |
| C60 | `Verif.Inplace.C60_raise_counterexample` | propext, Classical.choice, Quot.sound |
| C60 | `Verif.Inplace.C60_raise_below_counterexample` | propext, Classical.choice, Quot.sound |
| C60 | `Verif.Inplace.C60_objects_inplace_partial` | propext, Classical.choice, Quot.sound |
| C60 | `Verif.Inplace.C60_idempotent_partial` | propext, Classical.choice, Quot.sound |
| C60 | `Verif.Inplace.C60_no_cycle` | propext, Classical.choice, Quot.sound |
| C61 | `Verif.Inplace.C61_entity_partial` | propext, Classical.choice, Quot.sound |
| C61 | `Verif.Inplace.C61_value_partial` | propext, Classical.choice, Quot.sound |
| C61 | `Verif.Inplace.C61_equal_ingredients_counterexample` | propext, Classical.choice, Quot.sound |
| C61 | `Verif.Inplace.C61_value_ids` | propext, Classical.choice, Quot.sound |
| C61 | `Verif.Inplace.C61_entity_ids` | propext, Classical.choice, Quot.sound |
| C61 | `Verif.Inplace.C61_state_agrees` | propext, Classical.choice, Quot.sound |
| C61 | `Verif.Inplace.C61_state` | propext, Classical.choice, Quot.sound |
| C61 | `Verif.Inplace.C61_raise_counterexample` | propext, Classical.choice, Quot.sound |
| C62 | `Verif.Inplace.C62_entity_partial` | propext, Classical.choice, Quot.sound |
| C62 | `Verif.Inplace.C62_restores_partial` | propext, Classical.choice, Quot.sound |
| C62 | `Verif.Inplace.C62_value_partial` | propext, Classical.choice, Quot.sound |
| C63 | `Verif.SetAlias.C63_raises` | propext, Classical.choice, Quot.sound |
| C63 | `Verif.SetAlias.C63_stores` | propext, Quot.sound |
| C63 | `Verif.SetAlias.C63_reported` | propext, Quot.sound |
| C63 | `Verif.SetAlias.C63_sets_kept` | propext, Classical.choice, Quot.sound |
| C63 | `Verif.SetAlias.C63_others_kept` | propext, Classical.choice, Quot.sound |
| C63 | `Verif.SetAlias.C63_update` | propext, Classical.choice, Quot.sound |
| C63 | `Verif.SetAlias.C63_update_apart` | propext, Classical.choice, Quot.sound |
| C63 | `Verif.SetAlias.C63_construct_apart` | propext, Classical.choice, Quot.sound |
| C63 | `Verif.SetAlias.C63_strings_partial` | propext, Classical.choice, Quot.sound |
| C63 | `Verif.SetAlias.C63_shared_set_counterexample` | propext, Quot.sound |
| C64 | `Verif.SciNotation.C64_value_partial` | propext, Classical.choice, Quot.sound |
| C64 | `Verif.SciNotation.C64_untouched` | propext, Classical.choice, Quot.sound |
| C64 | `Verif.SciNotation.C64_divisor_counterexample` | propext, Classical.choice, Quot.sound |
| C64 | `Verif.SciNotation.C64_exponent_counterexample` | propext, Classical.choice, Quot.sound |
| C64 | `Verif.SciNotation.C64_fraction_counterexample` | propext, Classical.choice, Quot.sound |
| C64 | `Verif.SciNotation.C64_tower_counterexample` | propext, Classical.choice, Quot.sound |
| C64 | `Verif.SciNotation.C64_broken_counterexample` | propext, Classical.choice, Quot.sound |
| C65 | `Verif.Mangle.C65_expression` | propext, Classical.choice, Quot.sound |
| C65 | `Verif.Mangle.C65_preprocess_partial` | propext, Classical.choice, Quot.sound |
| C65 | `Verif.Mangle.C65_history_partial` | propext, Classical.choice, Quot.sound |
| C65 | `Verif.Mangle.C65_bare_partial` | propext, Classical.choice, Quot.sound |
| C65 | `Verif.Mangle.C65_repeated_counterexample` | propext, Classical.choice, Quot.sound |
| C65 | `Verif.Mangle.C65_digits_counterexample` | propext, Classical.choice, Quot.sound |
| C65 | `Verif.Mangle.C65_exponent_counterexample` | propext, Classical.choice, Quot.sound |
| C65 | `Verif.Mangle.C65_name_counterexample` | propext, Classical.choice, Quot.sound |
| C65 | `Verif.Mangle.C65_prefix_counterexample` | propext, Classical.choice, Quot.sound |
| C65 | `Verif.Mangle.C65_float_counterexample` | propext, Classical.choice, Quot.sound |
| C65 | `Verif.Mangle.C65_leading_counterexample` | propext, Classical.choice, Quot.sound |
| C65 | `Verif.Mangle.C65_history_counterexample` | propext, Classical.choice, Quot.sound |
| C66 | `Verif.Repr.C66_returns` | propext, Classical.choice, Quot.sound |
| C66 | `Verif.Repr.C66_shows` | propext, Classical.choice, Quot.sound |
| C66 | `Verif.Repr.C66_frame` | propext, Classical.choice, Quot.sound |
| C66 | `Verif.Repr.C66_built` | propext, Classical.choice, Quot.sound |
| C66 | `Verif.Repr.C66_own_notes` | propext, Classical.choice, Quot.sound |
| C67 | `Verif.Assign.C67_well_typed` | propext, Classical.choice, Quot.sound |
| C67 | `Verif.Assign.C67_two_way_partial` | propext, Classical.choice, Quot.sound |
| C67 | `Verif.Assign.C67_back_references` | propext, Classical.choice, Quot.sound |
| C67 | `Verif.Assign.C67_effect` | propext, Classical.choice, Quot.sound |
| C67 | `Verif.Assign.C67_accepts_partial` | propext, Classical.choice, Quot.sound |
| C67 | `Verif.Assign.C67_round_trip_partial` | propext, Classical.choice, Quot.sound |
| C67 | `Verif.Assign.C67_copy_equal_partial` | propext, Classical.choice, Quot.sound |
| C67 | `Verif.Assign.C67_ids` | propext, Classical.choice, Quot.sound |
| C67 | `Verif.Assign.C67_repr` | propext, Classical.choice, Quot.sound |
| C67 | `Verif.Assign.C67_bounds_counterexample` | propext, Classical.choice, Quot.sound |
| C67 | `Verif.Assign.C67_shared_process_counterexample` | propext, Classical.choice, Quot.sound |
| C67 | `Verif.Assign.C67_equal_sibling_counterexample` | propext, Classical.choice, Quot.sound |
| C67 | `Verif.Assign.C67_refused_agrees` | propext, Classical.choice, Quot.sound |
| C67 | `Verif.Assign.C67_refused_well_typed` | propext, Classical.choice, Quot.sound |
| C67 | `Verif.Assign.C67_refused_back_references` | propext, Classical.choice, Quot.sound |
| C67 | `Verif.Assign.C67_refused_effect` | propext, Classical.choice, Quot.sound |
| C67 | `Verif.Assign.C67_refused_names` | propext, Classical.choice, Quot.sound |
| C67 | `Verif.Assign.C67_refused_forgets` | propext, Classical.choice, Quot.sound |
| C67 | `Verif.Assign.C67_refused_repr` | propext, Classical.choice, Quot.sound |
| C67 | `Verif.Assign.C67_refused_counterexample` | propext, Classical.choice, Quot.sound |
| C68 | `Verif.Declared.C68_setter` | propext, Classical.choice, Quot.sound |
| C68 | `Verif.Declared.C68_constructor` | propext, Classical.choice, Quot.sound |
| C68 | `Verif.Declared.C68_refusal` | propext, Classical.choice, Quot.sound |
| C68 | `Verif.Declared.C68_new_accepts` | propext, Classical.choice, Quot.sound |
| C68 | `Verif.Declared.C68_new_stores` | propext, Classical.choice, Quot.sound |
| C68 | `Verif.Declared.C68_assignment` | propext, Classical.choice, Quot.sound |
| C68 | `Verif.Declared.C68_always` | propext, Classical.choice, Quot.sound |
| C68 | `Verif.Declared.C68_made` | propext, Classical.choice, Quot.sound |
| C68 | `Verif.Declared.C68_reversed` | propext, Classical.choice, Quot.sound |
| C69 | `Verif.Checked.C69_ignore` | propext, Classical.choice, Quot.sound |
| C69 | `Verif.Checked.C69_levels_agree` | propext, Classical.choice, Quot.sound |
| C69 | `Verif.Checked.C69_refusal` | propext, Classical.choice, Quot.sound |
| C69 | `Verif.Checked.C69_link_counterexample` | propext, Classical.choice, Quot.sound |
| C69 | `Verif.Checked.C69_fatal_partial` | propext, Classical.choice, Quot.sound |
| C69 | `Verif.Checked.C69_warning_partial` | propext, Classical.choice, Quot.sound |
| C69 | `Verif.Checked.C69_absolute_fails` | propext, Classical.choice, Quot.sound |
| C70 | `Verif.Markup.C70_clean_ones` | propext, Quot.sound |
| C70 | `Verif.Markup.C70_clean_again` | propext, Quot.sound |
| C70 | `Verif.Markup.C70_latex_clean` | propext, Classical.choice, Quot.sound |
| C70 | `Verif.Markup.C70_latex_markup` | propext, Classical.choice, Quot.sound |
| C70 | `Verif.Markup.C70_clean` | propext |
| C70 | `Verif.Markup.C70_latex` | propext, Classical.choice, Quot.sound |
| C70 | `Verif.Markup.C70_elements_partial` | propext, Quot.sound |
| C70 | `Verif.Markup.C70_elements_counterexample` | propext, Classical.choice, Quot.sound |
| C70 | `Verif.Markup.C70_expressions` | propext, Classical.choice, Quot.sound |
| C71 | `Verif.Tables.C71_fingerprint` | propext, Classical.choice, Quot.sound |
| C71 | `Verif.Tables.C71_minimal` | propext, Classical.choice, Quot.sound |
| C71 | `Verif.Tables.C71_first` | propext, Classical.choice, Quot.sound |
| C71 | `Verif.Tables.C71_again` | propext, Classical.choice, Quot.sound |
| C71 | `Verif.Tables.C71_script` | propext, Classical.choice, Quot.sound |
| C72 | `Verif.Tables.C72_display` | propext, Classical.choice, Quot.sound |
| C72 | `Verif.Tables.C72_display_accepts` | propext, Classical.choice, Quot.sound |
| C72 | `Verif.Tables.C72_display_raises` | propext, Classical.choice, Quot.sound |
| C72 | `Verif.Tables.C72_uncertainty_partial` | propext |
| C72 | `Verif.Tables.C72_uncertainty_fails` | none |
| C73 | `Verif.Migrate.C73_applies` | propext, Classical.choice, Quot.sound |
| C73 | `Verif.Migrate.C73_old_symbol` | propext, Classical.choice, Quot.sound |
| C73 | `Verif.Migrate.C73_other_symbols` | propext, Classical.choice, Quot.sound |
| C73 | `Verif.Migrate.C73_symbol_counterexample` | propext, Classical.choice, Quot.sound |
| C74 | `Verif.Version.C74_extract` | propext, Classical.choice, Quot.sound |
| C74 | `Verif.Version.C74_verdict` | propext, Classical.choice, Quot.sound |
| C74 | `Verif.Version.C74_status` | propext, Classical.choice, Quot.sound |
| C74 | `Verif.Version.C74_status_counterexample` | propext, Classical.choice, Quot.sound |
| C75 | `Verif.JsonText.C75_grammar` | propext, Classical.choice, Quot.sound |
| C75 | `Verif.JsonText.C75_rejects` | propext, Classical.choice, Quot.sound |
| C75 | `Verif.JsonText.C75_unambiguous` | propext, Classical.choice, Quot.sound |
| C75 | `Verif.JsonText.C75_text` | propext, Classical.choice, Quot.sound |
| C75 | `Verif.JsonText.C75_loads` | propext, Classical.choice, Quot.sound |
| C75 | `Verif.JsonText.C75_plain` | propext, Classical.choice, Quot.sound |
| C75 | `Verif.JsonText.C75_injective` | propext, Classical.choice, Quot.sound |
| C75 | `Verif.JsonText.C75_total` | propext, Classical.choice, Quot.sound |
| C75 | `Verif.JsonText.C75_truncated` | propext, Classical.choice, Quot.sound |
| C75 | `Verif.JsonText.C75_trailing` | propext, Classical.choice, Quot.sound |
| C75 | `Verif.JsonText.C75_ascii` | propext, Classical.choice, Quot.sound |
| C75 | `Verif.JsonText.C75_raises` | propext, Classical.choice, Quot.sound |
| C75 | `Verif.JsonText.C75_hex` | propext, Quot.sound |
| C75 | `Verif.JsonText.C75_indented` | propext, Classical.choice, Quot.sound |
| C75 | `Verif.JsonText.C75_raw` | propext, Classical.choice, Quot.sound |
| C75 | `Verif.JsonText.C75_round_trip_partial` | propext, Classical.choice, Quot.sound |
| C76 | `Verif.Strehlow.C76_objects` | propext, Classical.choice, Quot.sound |
| C76 | `Verif.Strehlow.C76_table` | propext, Classical.choice, Quot.sound |
| C76 | `Verif.Strehlow.C76_display` | propext, Classical.choice, Quot.sound |
| C76 | `Verif.Strehlow.C76_accepts` | propext, Classical.choice, Quot.sound |
| C76 | `Verif.Strehlow.C76_unknown` | propext, Classical.choice, Quot.sound |
| C76 | `Verif.Strehlow.C76_lost_counterexample` | propext, Classical.choice, Quot.sound |
| C76 | `Verif.Strehlow.C76_once_partial` | propext, Classical.choice, Quot.sound |
| C76 | `Verif.Strehlow.C76_once_counterexample` | propext |
| C77 | `Verif.Ingest.C77_value` | propext, Classical.choice, Quot.sound |
| C77 | `Verif.Ingest.C77_ingest` | propext, Classical.choice, Quot.sound |
| C77 | `Verif.Ingest.C77_accepts` | propext, Classical.choice, Quot.sound |
| C77 | `Verif.Ingest.C77_spec_fails` | propext, Classical.choice, Quot.sound |
| C77 | `Verif.Ingest.C77_process_fails` | propext, Classical.choice, Quot.sound |
| C77 | `Verif.Ingest.C77_raises` | propext, Classical.choice, Quot.sound |
| C77 | `Verif.Ingest.C77_unit_counterexample` | propext, Classical.choice, Quot.sound |
| C77 | `Verif.Ingest.C77_table` | propext, Quot.sound |
| C78 | `Verif.Cake.C78_runs` | propext, Classical.choice, Quot.sound |
| C78 | `Verif.Cake.C78_within` | propext, Classical.choice, Quot.sound |
| C78 | `Verif.Cake.C78_find` | propext, Classical.choice, Quot.sound |
| C78 | `Verif.Cake.C78_whole` | propext, Classical.choice, Quot.sound |
| C78 | `Verif.Cake.C78_recipe` | propext, Classical.choice, Quot.sound |
| C78 | `Verif.Cake.C78_measured` | propext, Classical.choice, Quot.sound |
| C78 | `Verif.Cake.C78_sugar_counterexample` | propext, Classical.choice, Quot.sound |
| C78 | `Verif.Cake.C78_volume_counterexample` | propext, Classical.choice, Quot.sound |
| C78 | `Verif.Cake.C78_ids` | propext, Classical.choice, Quot.sound |
| C78 | `Verif.Cake.C78_scopes` | propext |
| C78 | `Verif.Cake.C78_template_ids` | propext, Classical.choice, Quot.sound |
| C78 | `Verif.Cake.C78_scope_counterexample` | propext, Classical.choice, Quot.sound |
| C78 | `Verif.Cake.C78_allowed` | propext, Classical.choice, Quot.sound |
| C79 | `Verif.Cake.C79_flexural` | propext, Classical.choice, Quot.sound |
| C79 | `Verif.Cake.C79_all` | propext, Classical.choice, Quot.sound |
| C79 | `Verif.Cake.C79_counterexample` | propext, Classical.choice, Quot.sound |
| C80 | `Verif.Cake.C80_units` | propext, Classical.choice, Quot.sound |
| C80 | `Verif.Cake.C80_attributes` | propext, Classical.choice, Quot.sound |
| C80 | `Verif.Cake.C80_all` | propext, Classical.choice, Quot.sound |
| C80 | `Verif.Cake.C80_oven` | propext, Classical.choice, Quot.sound |
| C80 | `Verif.Cake.C80_measured` | propext, Classical.choice, Quot.sound |
| C80 | `Verif.Cake.C80_class` | propext, Classical.choice, Quot.sound |
| C80 | `Verif.Cake.C80_templates` | propext, Classical.choice, Quot.sound |
| C80 | `Verif.Cake.C80_unchecked_counterexample` | propext, Classical.choice, Quot.sound |
| C80 | `Verif.Cake.C80_quantities` | propext, Classical.choice, Quot.sound |
| C80 | `Verif.Cake.C80_fatal_counterexample` | propext, Classical.choice, Quot.sound |
