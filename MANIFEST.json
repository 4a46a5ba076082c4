{
 "claims": [
  {
   "property": "C01",
   "status": "partial",
   "theorems": [
    "Verif.CIDict.C01_history_partial",
    "Verif.CIDict.C01_init_lookup",
    "Verif.CIDict.C01_self_conflicting_update_counterexample",
    "Verif.CIDict.C01_setdefault_counterexample",
    "Verif.CIDict.C01_lookups"
   ],
   "note": "Every history of operations refines a one-list specification (partial: update arguments that conflict with themselves and setdefault excluded; both excluded cases have counterexample theorems). C01_lookups: what holds of lookups after every history, these included."
  },
  {
   "property": "C02",
   "status": "partial",
   "theorems": [
    "Verif.CIDict.C02_init_iff",
    "Verif.CIDict.C02_setItem",
    "Verif.CIDict.C02_update_atomic_partial",
    "Verif.CIDict.C02_update_not_atomic_counterexample",
    "Verif.CIDict.C02_update"
   ],
   "note": "Constructor and item assignment are exact; C02_update says what update does in every state with every batch; it is atomic only when the batch does not conflict with itself (counterexample given)."
  },
  {
   "property": "C03",
   "status": "partial",
   "theorems": [
    "Verif.VList.C03_type_invariant",
    "Verif.VList.C03_reject",
    "Verif.VList.C03_iadd_counterexample",
    "Verif.VList.C03_slice_counterexample"
   ],
   "note": "Type invariant over histories; += and slice assignment reject/accept as the code does, with counterexamples for the strong statement."
  },
  {
   "property": "C04",
   "status": "partial",
   "theorems": [
    "Verif.VList.C04_failure_atomic",
    "Verif.VList.C04_init_partial",
    "Verif.VList.C04_append",
    "Verif.VList.C04_extend_partial",
    "Verif.VList.C04_insert",
    "Verif.VList.C04_setItem",
    "Verif.VList.C04_setSlice",
    "Verif.VList.C04_raises",
    "Verif.VList.C04_insert_outside",
    "Verif.VList.C04_first_failure",
    "Verif.VList.C04_oneShot_dropped"
   ],
   "note": "List effects and failure atomicity; one-shot iterators are consumed by the check (partial, proved as the code behaves)."
  },
  {
   "property": "C05",
   "status": "partial",
   "theorems": [
    "Verif.Bounds.C05_real_contains",
    "Verif.Bounds.C05_decreasing_unit_fails"
   ],
   "note": "Sound and complete against the set denotation for every unit system with invertible, order-preserving conversions. For a unit of negative scale the claim is false (C05_decreasing_unit_fails)."
  },
  {
   "property": "C06",
   "status": "proved",
   "theorems": [
    "Verif.Bounds.C06_contains"
   ],
   "note": "Containment is inclusion of denotations for the four other kinds."
  },
  {
   "property": "C07",
   "status": "proved",
   "theorems": [
    "Verif.Bounds.C07_refl",
    "Verif.Bounds.C07_trans"
   ],
   "note": "Reflexive on valid bounds, transitive across kinds and units (order-preserving units)."
  },
  {
   "property": "C08",
   "status": "proved",
   "theorems": [
    "Verif.Bounds.C08_union_lub",
    "Verif.Bounds.C08_union_succeeds_iff",
    "Verif.Bounds.C08_raises"
   ],
   "note": "Least upper bound and the exact success condition. Non-mutation of the arguments holds by construction of the functional model."
  },
  {
   "property": "C09",
   "status": "partial",
   "theorems": [
    "Verif.Bounds.C09_update_is_union_partial",
    "Verif.Bounds.C09_update_mol_partial",
    "Verif.Bounds.C09_update_mol_counterexample"
   ],
   "note": "Equality with union and failure atomicity for every kind except molecular structure, whose update accepts anything (counterexample)."
  },
  {
   "property": "C10",
   "status": "partial",
   "theorems": [
    "Verif.Bounds.C10_step",
    "Verif.Bounds.C10_history",
    "Verif.Bounds.C10_real_init",
    "Verif.Bounds.C10_int_init",
    "Verif.Bounds.C10_categories_partial",
    "Verif.Bounds.C10_categories_counterexample",
    "Verif.Bounds.C10_real_setters",
    "Verif.Bounds.C10_int_setters"
   ],
   "note": "Invariant over all histories, failing steps included; the categories/components setters store before they validate (counterexample)."
  },
  {
   "property": "C11",
   "status": "proved",
   "theorems": [
    "Verif.Bounds.C11_dispatch"
   ],
   "note": "Full decision table."
  },
  {
   "property": "C12",
   "status": "partial",
   "theorems": [
    "Verif.Bounds.C12_bounds_are_support",
    "Verif.Bounds.C12_smallest",
    "Verif.Bounds.C12_has_bounds_partial",
    "Verif.Bounds.C12_big_integer_counterexample",
    "Verif.Bounds.C12_missing_raises"
   ],
   "note": "Least-bounds theorem for all value kinds; integer values not representable as floats have no bounds (counterexample)."
  },
  {
   "property": "C13",
   "status": "partial",
   "theorems": [
    "Verif.Bounds.C13_accepts_iff_partial",
    "Verif.Bounds.C13_small_partial",
    "Verif.Bounds.C13_counterexample",
    "Verif.Bounds.C13_raises",
    "Verif.Bounds.C13_nearest",
    "Verif.Bounds.C13_representable",
    "Verif.Bounds.C13_ties",
    "Verif.Bounds.C13_overflow"
   ],
   "note": "False in general: ints that float() does not represent exactly are refused (2^53+1). The exact acceptance condition and the case |n| <= 2^53 are proved."
  },
  {
   "property": "C14",
   "status": "proved",
   "theorems": [
    "Verif.Bounds.C14_conversion",
    "Verif.Bounds.C14_containment_unit_free",
    "Verif.Bounds.C14_affine_lawful"
   ],
   "note": "For every lawful unit system; affine exact-rational systems with positive scale are shown lawful. IEEE rounding is not modelled."
  },
  {
   "property": "C15",
   "status": "partial",
   "theorems": [
    "Verif.Cache.C15_no_stale",
    "Verif.Cache.C15_no_stale_exact",
    "Verif.Cache.C15_bounded",
    "Verif.Cache.C15_type_counterexample",
    "Verif.Cache.C15_interleaving_counterexample"
   ],
   "note": "For every interleaving of calls and definition changes the answer is the one the current registry gives. Two negations proved: 1 and 1.0 share a key, so the type of a result may be stale; a conversion running between clearing the cache and installing the registry leaves a stale entry."
  },
  {
   "property": "C16",
   "status": "partial",
   "theorems": [
    "Verif.Mangle.C16_terminates",
    "Verif.Mangle.C16_unchanged",
    "Verif.Mangle.C16_roundtrip_partial",
    "Verif.Mangle.C16_roundtrip_unit_partial",
    "Verif.Mangle.C16_distinct_partial",
    "Verif.Mangle.C16_leading_dot_counterexample",
    "Verif.Mangle.C16_two_factors_counterexample",
    "Verif.Mangle.C16_sign_counterexample",
    "Verif.Mangle.C16_exponent_counterexample",
    "Verif.Mangle.C16_trailing_dot_counterexample",
    "Verif.Mangle.C16_expression",
    "Verif.Mangle.C16_expression_mangle"
   ],
   "note": "Termination, identifiers without code unchanged, round trip of one factor with or without unit in any code-free context, injectivity. Five negations proved: leading dot, trailing dot, two factors one of which is a prefix of the other, lost sign, unit named like the exponent letter. The hand-written matchers are proved equal to the regular expressions of the source under the backtracking matcher of Model/Regex.lean, for unmangling (C16_expression) and for mangling (C16_expression_mangle)."
  },
  {
   "property": "C17",
   "status": "partial",
   "theorems": [
    "Verif.Strings.C17_duplicate_raises",
    "Verif.Strings.C17_lookup",
    "Verif.Strings.C17_own_value_partial",
    "Verif.Strings.C17_synonym_partial",
    "Verif.Strings.C17_call",
    "Verif.Strings.C17_synonym_counterexample",
    "Verif.Strings.C17_whitespace_counterexample"
   ],
   "note": "Lookup is characterised exactly for every enumeration that can be created. Finding a member by each synonym fails when an earlier member shares it, and values declared with surrounding whitespace are never found (counterexamples)."
  },
  {
   "property": "C18",
   "status": "partial",
   "theorems": [
    "Verif.Strings.C18_prefix_and_idempotent_partial",
    "Verif.Strings.C18_body_partial",
    "Verif.Strings.C18_other",
    "Verif.Strings.C18_prefix_counterexample",
    "Verif.Strings.C18_body_counterexample"
   ],
   "note": "The stored string always begins with InChI and setting it again is the identity. It may lack the = sign, and repeated markers in the body are rewritten (counterexamples)."
  },
  {
   "property": "C19",
   "status": "proved",
   "theorems": [
    "Verif.Strings.C19_expression",
    "Verif.Strings.C19_accept_iff",
    "Verif.Strings.C19_bounds",
    "Verif.Strings.C19_missing"
   ],
   "note": "Acceptance iff every token is in the table, for any table; bounds through any history; missing and empty formula. The tokens are those of re.findall with the expression of the source (C19_expression)."
  },
  {
   "property": "C20",
   "status": "partial",
   "theorems": [
    "Verif.Dist.C20_uniform_integer",
    "Verif.Dist.C20_uniform_integer_atomic",
    "Verif.Dist.C20_uniform_integer_stores",
    "Verif.Dist.C20_uniform_integer_raises",
    "Verif.Dist.C20_whole_numbers",
    "Verif.Dist.C20_discrete_categorical",
    "Verif.Dist.C20_discrete_categorical_history",
    "Verif.Dist.C20_uniform_real_init_partial",
    "Verif.Dist.C20_uniform_real_partial",
    "Verif.Dist.C20_uniform_real_counterexample"
   ],
   "note": "UniformInteger and DiscreteCategorical over all histories; UniformReal attributes are unchecked after construction (counterexample)."
  },
  {
   "property": "C21",
   "status": "partial",
   "theorems": [
    "Verif.Level.C21_scoped_partial",
    "Verif.Level.C21_restores_partial",
    "Verif.Level.C21_bad_level",
    "Verif.Level.C21_raise_counterexample"
   ],
   "note": "Proved for blocks left normally or by return, for every nesting; a block left by an exception keeps its level (negation proved)."
  },
  {
   "property": "C22",
   "status": "partial",
   "theorems": [
    "Verif.Attr.C22_fatal_history",
    "Verif.Attr.C22_rejected_unchanged",
    "Verif.Attr.C22_warning_partial",
    "Verif.Attr.C22_fatal_decides",
    "Verif.Attr.C22_ignore",
    "Verif.Attr.C22_none_other",
    "Verif.Attr.C22_link_counterexample",
    "Verif.Attr.C22_incomplete_counterexample"
   ],
   "note": "Proved at FATAL over all histories when templates are objects; link templates and incomplete values are negated by witnesses."
  },
  {
   "property": "C23",
   "status": "partial",
   "theorems": [
    "Verif.Template.C23_warning_decides",
    "Verif.Template.C23_fatal_partial",
    "Verif.Template.C23_unlisted_partial",
    "Verif.Template.C23_no_template",
    "Verif.Template.C23_fatal_decides",
    "Verif.Template.C23_refused",
    "Verif.Template.C23_template_counterexample",
    "Verif.Template.C23_duplicate_counterexample",
    "Verif.Template.C23_link_counterexample"
   ],
   "note": "Invariant over all histories after the template is set. False if the template is assigned after the attributes, if a template is listed twice, or if a link is listed and the attribute has no template (negations proved)."
  },
  {
   "property": "C24",
   "status": "partial",
   "theorems": [
    "Verif.Attr.C24_fraction_fatal",
    "Verif.Attr.C24_fraction_warning",
    "Verif.Attr.C24_absolute_fatal_fails",
    "Verif.Attr.C24_absolute_partial",
    "Verif.Attr.C24_atomic"
   ],
   "note": "Fractions: proved at all levels. Absolute quantities: at FATAL every absolute quantity is refused, which contradicts the claim (negation proved)."
  },
  {
   "property": "C25",
   "status": "partial",
   "theorems": [
    "Verif.Template.C25_raises",
    "Verif.Template.C25_content",
    "Verif.Template.C25_container",
    "Verif.Template.C25_history",
    "Verif.Template.C25_decides_partial",
    "Verif.Template.C25_bare_pair",
    "Verif.Template.C25_single",
    "Verif.Template.C25_one_shot_counterexample",
    "Verif.Template.C25_wrong_class_counterexample"
   ],
   "note": "Invariant over all histories and decision theorem for lists and tuples. One-shot iterators are dropped unseen and a template of the wrong class is accepted inside a pair (negations proved)."
  },
  {
   "property": "C26",
   "status": "partial",
   "theorems": [
    "Verif.Heap.C26_linked_partial",
    "Verif.Heap.C26_listed_partial",
    "Verif.Heap.C26_members",
    "Verif.Heap.C26_failed_assignment_counterexample",
    "Verif.Heap.C26_twin_counterexample"
   ],
   "note": "Invariant over all histories without failing assignments and without moving an ingredient that equals another of the same process; without the first restriction one direction and uniqueness remain. Negations proved for failing assignments and for equal ingredients. Class of the listed objects: all histories."
  },
  {
   "property": "C27",
   "status": "partial",
   "theorems": [
    "Verif.Heap.C27_output",
    "Verif.Heap.C27_one_to_one_partial",
    "Verif.Heap.C27_stealing_counterexample",
    "Verif.Heap.C27_failed_assignment_counterexample",
    "Verif.Heap.C27_failed_construction_counterexample"
   ],
   "note": "For all histories the output material of a process names that process. The converse for histories without stealing and without failing assignments; negations proved for stealing, failing assignment and failing construction."
  },
  {
   "property": "C28",
   "status": "partial",
   "theorems": [
    "Verif.Heap.C28_linked_partial",
    "Verif.Heap.C28_listed_partial",
    "Verif.Heap.C28_members",
    "Verif.Heap.C28_failed_assignment_counterexample",
    "Verif.Heap.C28_twin_counterexample"
   ],
   "note": "As C26, for measurements and materials."
  },
  {
   "property": "C29",
   "status": "proved",
   "theorems": [
    "Verif.Heap.C29_references",
    "Verif.Heap.C29_rejected",
    "Verif.Heap.C29_rejected_linked"
   ],
   "note": "Invariant over all histories of constructions and attempted assignments; disallowed assignments raise and leave the reference fields unchanged."
  },
  {
   "property": "C30",
   "status": "proved",
   "theorems": [
    "Verif.Heap.C30_attached",
    "Verif.Heap.C30_renamed",
    "Verif.Heap.C30_detached",
    "Verif.Heap.C30_loaded",
    "Verif.Heap.C30_unset",
    "Verif.Heap.C30_made"
   ],
   "note": "For all histories: attached runs show the present name and labels of the spec, detached runs keep the last ones, loaded runs those of the dictionary; and the name and labels of an ingredient run cannot be set (C30_unset)."
  },
  {
   "property": "C31",
   "status": "proved",
   "theorems": [
    "Verif.Link.C31_to_link",
    "Verif.Link.C31_to_link_raises_iff",
    "Verif.Link.C31_to_link_valueError",
    "Verif.Link.C31_from_entity"
   ],
   "note": "to_link returns the id stored under the requested scope (compared without case), or under some scope if fallback is allowed; raises exactly when there is none; from_entity adds an auto id only if needed."
  },
  {
   "property": "C32",
   "status": "partial",
   "theorems": [
    "Verif.Link.C32_link_entity_iff",
    "Verif.Link.C32_link_entity_total",
    "Verif.Link.C32_symmetric_link_partial",
    "Verif.Link.C32_none_id_counterexample",
    "Verif.Link.C32_pair_entity_iff",
    "Verif.Link.C32_other_tuples",
    "Verif.Link.C32_link_tuple_iff",
    "Verif.Link.C32_hash",
    "Verif.Link.C32_not_transitive_counterexample",
    "Verif.Link.C32_pair_raises",
    "Verif.Equal.C32_values",
    "Verif.Equal.C32_link_values"
   ],
   "note": "entity == link and entity == (scope, id) exactly when the entity carries the id under that scope up to case. Partial: a link whose id is None compares equal from one side only (counterexample), and == is not transitive through links (counterexample). LinkByUID hash is case sensitive while entity comparison is not."
  },
  {
   "property": "C33",
   "status": "partial",
   "theorems": [
    "Verif.Equal.C33_terminates_partial",
    "Verif.Equal.C33_answers_partial",
    "Verif.Equal.C33_plain_cycle_counterexample"
   ],
   "note": "Termination for every finite graph, however cyclic, in which entities inside plain values (templates inside attributes) do not lead back; with entities only in lists meant for them, and no pairs such as (1, 2) to compare an entity with, no exception is raised. Counterexample: two objects each containing itself inside a nested list."
  },
  {
   "property": "C34",
   "status": "partial",
   "theorems": [
    "Verif.Equal.C34_symmetric_counterexample",
    "Verif.Equal.C34_tags_counterexample",
    "Verif.Equal.C34_isomorphic_counterexample",
    "Verif.Equal.C34_isomorphic_partial",
    "Verif.Equal.C34_reflexive",
    "Verif.Equal.C34_reflexive_answers",
    "Verif.Equal.C34_sound",
    "Verif.Equal.C34_objects",
    "Verif.Equal.C34_containers"
   ],
   "note": "Reflexivity is proved for all graphs. Equal entities have the same keys (so type), uids, scalars and list lengths. Copies up to identity and list order compare equal when non-corresponding members of the same list differ in uids. Missing/false: symmetry (two counterexamples), copies without uids (counterexample)."
  },
  {
   "property": "C35",
   "status": "partial",
   "theorems": [
    "Verif.Substitute.C35_resolves_partial",
    "Verif.Substitute.C35_index_partial",
    "Verif.Substitute.C35_collection_partial",
    "Verif.Substitute.C35_copies_counterexample",
    "Verif.Substitute.C35_pairs_counterexample",
    "Verif.Substitute.C35_cycle_counterexample"
   ],
   "note": "Proved: make_index returns, on cyclic graphs too, an index that gives for every (scope, id) an entity of the collection carrying it, or nothing if there is none (C35_index_partial); substitute_objects with any index returns the value in which links known to the index are replaced by copies of the entities, at any depth and inside nested entities, other links and values are kept, and existing entities are unchanged (C35_resolves_partial, C35_collection_partial). The condition Resolution asks that the resolved values are accepted by the constructors. Partial: copies and not the entities themselves are put in place (C35_copies_counterexample); tuples (C35_pairs_counterexample) and entities containing a link to themselves (C35_cycle_counterexample) are excluded because the claim fails there; inplace=True is C60."
  },
  {
   "property": "C36",
   "status": "partial",
   "theorems": [
    "Verif.Value.C36_visits_all_once_partial",
    "Verif.Value.C36_every_graph",
    "Verif.Value.C36_tuple_with_list_counterexample",
    "Verif.Value.C36_self_containing_list_counterexample",
    "Verif.Value.C36_state",
    "Verif.Value.C36_agrees"
   ],
   "note": "For every memory of entities, every value as argument and every callback that does not rewire the graph (it may raise): the loop ends and has called the callback on exactly the entities in the independently defined reach, once each - or, exactly if a tuple in reach contains a list or dictionary, on some of them, none twice, and then raises TypeError (C36_every_graph); C36_state adds the state that is left behind when a call or the tuple raises (Model/TraverseState.lean, which C36_agrees ties to the loop of Model/Traverse.lean). Counterexamples for such tuples and for lists that contain themselves, where the loop never ends."
  },
  {
   "property": "C37",
   "status": "partial",
   "theorems": [
    "Verif.Value.C37_every_graph",
    "Verif.Value.C37_collects_all_once_partial",
    "Verif.Value.C37_results_partial",
    "Verif.Value.C37_tuple_with_list_counterexample"
   ],
   "note": "As C36, for both values of unidirectional; the result is the concatenation of the callback's results, or TypeError exactly if a tuple in reach contains a list or dictionary (C37_every_graph; counterexample)."
  },
  {
   "property": "C38",
   "status": "partial",
   "theorems": [
    "Verif.Value.C38_set_uuids_partial",
    "Verif.Value.C38_raises",
    "Verif.Value.C38_tuple_with_list_counterexample",
    "Verif.Value.C38_state"
   ],
   "note": "Exact effect of set_uuids on every entity, each new id from a separate draw, second call changes nothing. It raises TypeError exactly if a tuple in reach contains a list or dictionary (C38_raises; counterexample); C38_state says what it has done to the entities by then."
  },
  {
   "property": "C39",
   "status": "partial",
   "theorems": [
    "Verif.Substitute.C39_flatten_partial",
    "Verif.Substitute.C39_no_id",
    "Verif.Substitute.C39_flatten_scope_partial",
    "Verif.Substitute.C39_chain_counterexample",
    "Verif.Substitute.C39_case_counterexample",
    "Verif.Substitute.C39_state_agrees",
    "Verif.Substitute.C39_state",
    "Verif.Substitute.C39_scope_state_exact",
    "Verif.Substitute.C39_scope_state",
    "Verif.Substitute.C39_ids_stay"
   ],
   "note": "flatten, with and without a scope: results are exactly one stripped copy of each entity kept, no shared ids, no entity left inside, inputs unchanged (set_uuids aside); an entity without id is a ValueError. Partial: no tuples, no entities in free attributes (notes, name...). Disagreements shown: entities sharing some but not all ids can lose an id altogether; ids whose scopes differ in case are both kept. For all inputs, whether flatten returns or raises (C39_state, C39_scope_state): existing entities are unchanged, except that with a scope those in reach without an id may have gained one, which stays if it raises (C39_ids_stay)."
  },
  {
   "property": "C40",
   "status": "partial",
   "theorems": [
    "Verif.Substitute.C40_order_partial"
   ],
   "note": "The result list: an object comes after every result that it links to, for type-correct links (mayPoint) and ids that determine the class; stable within a class. Partial for the same reasons as C39."
  },
  {
   "property": "C41",
   "status": "partial",
   "theorems": [
    "Verif.Substitute.C41_values_partial",
    "Verif.Substitute.C41_entity_partial",
    "Verif.Substitute.C41_entity_built_partial",
    "Verif.Substitute.C41_unlinkable",
    "Verif.Substitute.C41_pairs_counterexample",
    "Verif.Substitute.C41_numbers_counterexample"
   ],
   "note": "Proved over the model of substitute_links (_substitute with its dictionary of results, to_link, as_dict/build of value objects and of the top-level entity through JSON): for every nested structure the result contains no entity at any depth, each has become a link whose id it carries in that scope, everything else is equal (alike: an independent relation), and memory is unchanged; for an entity the result is one new entity of the same class and uids with all as_dict attributes alike, older entities untouched. Hypotheses: values made by constructors, every entity occurring can be linked to (otherwise it raises: C41_unlinkable), no tuples (counterexample proved: a tuple and a link collide in the dictionary of results), no dictionary key \"type\", and an entity does not contain itself below its own attributes. Types of numbers are not preserved (counterexample proved: [1, True] becomes [1, 1])."
  },
  {
   "property": "C42",
   "status": "partial",
   "theorems": [
    "Verif.Substitute.C42_values_partial",
    "Verif.Substitute.C42_entity_partial",
    "Verif.Substitute.C42_collection_partial",
    "Verif.Substitute.C42_entity_collection_partial",
    "Verif.Substitute.C42_scope_counterexample",
    "Verif.Substitute.C42_ambiguous_counterexample"
   ],
   "note": "Proved: with an index that gives for the link of each entity that entity and knows no other link in the value, substitute_objects(substitute_links(v)) is a copy of v at every depth, for containers and values (C42_values_partial) and for an entity (C42_entity_partial); such an index is make_index of any collection whose entities have different ids and that contains the entities of v (C42_collection_partial, C42_entity_collection_partial). Partial: the entities restored are copies (as C35); tuples and entities nested in themselves are excluded; links by a scope spelled differently are not found again (C42_scope_counterexample); ids must be unambiguous (C42_ambiguous_counterexample); inplace=True is C62."
  },
  {
   "property": "C43",
   "status": "partial",
   "theorems": [
    "Verif.Substitute.C43_built_partial",
    "Verif.Substitute.C43_link_counterexample",
    "Verif.Substitute.C43_shared_process_counterexample",
    "Verif.Substitute.C43_tuple_counterexample",
    "Verif.Substitute.C43_round_trip_partial"
   ],
   "note": "Proved: for object graphs with unambiguous ids (compared as loads does), no link meaning an entity in reach, back-links in agreement, no tuples and no dictionary key 'type', dumps succeeds and loads of its result (in any memory) yields new entities isomorphic to the original (class, ids, as_dict values, back-links); C43_built_partial derives the condition on back-links for entities made by constructors. Missing: the excluded graphs; for three of the exclusions the property is false and a counterexample is proved (link meaning an entity in reach, two materials with one process, tuples)."
  },
  {
   "property": "C44",
   "status": "proved",
   "theorems": [
    "Verif.Substitute.C44_dumps_keeps",
    "Verif.Substitute.C44_loads_keeps",
    "Verif.Substitute.C44_state_agrees",
    "Verif.Substitute.C44_state_exact",
    "Verif.Substitute.C44_dumps_state",
    "Verif.Substitute.C44_thin_state",
    "Verif.Substitute.C44_ids_stay",
    "Verif.Substitute.C44_loads_agrees",
    "Verif.Substitute.C44_loads_state"
   ],
   "note": "No hypothesis on the memory. C44_dumps_keeps: when dumps returns, all entities keep class, fields and ids, except that one in reach without any id may have gained one. C44_loads_keeps: loads changes no existing entity. The same holds if dumps or thin_dumps raises (C44_dumps_state, C44_thin_state, C44_state_exact): ids that were given by then stay (C44_ids_stay). C44_loads_state: also if loads raises, existing entities are unchanged; the work of the constructor call that raises is not modelled there, only that of the calls before it."
  },
  {
   "property": "C45",
   "status": "partial",
   "theorems": [
    "Verif.Json.C45_links",
    "Verif.Json.C45_unknown_type",
    "Verif.Json.C45_no_type",
    "Verif.Json.C45_extra_fields_partial",
    "Verif.Json.C45_self_field_counterexample",
    "Verif.Json.C45_same_id_counterexample",
    "Verif.Json.C45_same_id_links_counterexample",
    "Verif.Json.C45_records_fresh"
   ],
   "note": "Proved over the model of loads (hook of the JSON decoder with its index, any number of records): every link that was replaced points to an entity created by this call that carries its id (scope in lower case); unknown types are rejected with TypeError, dictionaries without \"type\" stay dictionaries, each record creates one new object and changes the class and uids of no other. Fields that are not arguments are ignored unless called \"self\" (counterexample proved: TypeError), so that part is _partial. Two records with the same id give two objects, and later links point to the later one (counterexamples proved)."
  },
  {
   "property": "C46",
   "status": "partial",
   "theorems": [
    "Verif.Json.C46_dump_build_partial",
    "Verif.Json.C46_as_dict_build_partial",
    "Verif.Json.C46_constructor_fields",
    "Verif.Json.C46_dump_determines",
    "Verif.Json.C46_type_key_counterexample",
    "Verif.Json.C46_type_category_counterexample",
    "Verif.Json.C46_tuple_counterexample",
    "Verif.Json.C46_dump_build_entities_partial",
    "Verif.Json.C46_as_dict_build_entity_partial"
   ],
   "note": "Every constructor of gemd's value classes is modelled by one table (arguments, defaults, setters). Proved for every value the constructors can return: the constructor called with the object's own fields returns the object (C46_constructor_fields); building from dump() and from as_dict() gives an equal value (C46_dump_build_partial, C46_as_dict_build_partial), the relation 'same' being finer than ==; for entities and values containing entities, building gives a copy made of new entities (C46_dump_build_entities_partial, C46_as_dict_build_entity_partial). Partial: keys called 'type' and tuples are excluded because the claim is false there (three counterexample theorems: building raises TypeError, a tuple comes back as a list), and so are entities nested in themselves. Assumed: parsing units is idempotent (C16) and enumeration members are their own text."
  },
  {
   "property": "C47",
   "status": "proved",
   "theorems": [
    "Verif.Registry.C47_most_recent",
    "Verif.Registry.C47_only_from_ancestors",
    "Verif.Registry.C47_define",
    "Verif.Registry.C47_mapping_is_a_copy",
    "Verif.Registry.C47_mapping_contents",
    "Verif.Registry.C47_skip"
   ],
   "note": "Proved for every sequence of class definitions (any bases, MROs and typ values, with DictSerializable's metaclass or with a foreign one) and of reads and edits of class_mapping: the registry of a class maps typ to the class most recently defined for it below the class' base, only ancestors share it, and the mapping returned to callers is a copy."
  },
  {
   "property": "C48",
   "status": "proved",
   "theorems": [
    "Verif.Instance.C48_make_instance",
    "Verif.Instance.C48_not_a_spec"
   ],
   "note": "Model/Instance.lean follows make_instance's recursion with `seen`, with the setters of MaterialRun.process, IngredientRun.process and IngredientRun.material on an object memory. For every memory of well-formed specs (Specs, which specs_of_built proves of anything constructors make), the result is either a Mirror (one run per spec in the history, linked as the specs are, nothing else changed) or, exactly when the history contains a link, a TypeError with all existing entities unchanged. Python's recursion limit is not modelled; fuel larger than the number of entities is proved enough."
  },
  {
   "property": "C49",
   "status": "proved",
   "theorems": [
    "Verif.Dependencies.C49_dependencies"
   ],
   "note": "Proved for every entity of every class in a well-typed memory whose text and number attributes (names, notes, bounds, ...), which the library does not check, hold no entities or links, as their documented types say: all_dependencies returns, without repetition, exactly the entities and links occurring in the attributes that the constructor takes. An example shows the behaviour outside that condition (a link stored in notes is not reported). The method resolution order and the traversal of base classes are modelled and computed."
  },
  {
   "property": "C50",
   "status": "partial",
   "theorems": [
    "Verif.Builders.C50_make_node",
    "Verif.Builders.C50_add_edge",
    "Verif.Builders.C50_add_edge_else",
    "Verif.Builders.C50_add_edge_raises_partial",
    "Verif.Builders.C50_add_measurement",
    "Verif.Builders.C50_add_measurement_else",
    "Verif.Builders.C50_add_measurement_raises_partial",
    "Verif.Builders.C50_add_edge_counterexample",
    "Verif.Builders.C50_add_measurement_counterexample"
   ],
   "note": "Model/Builders.lean follows make_node, add_edge and add_measurement on the entity memory, with the memory after a raise. Success is characterized exactly (C50_make_node, C50_add_edge, C50_add_measurement: they succeed if and only if the documented inputs are given, and then link as documented and change only the ingredients/measurements lists named). The second half of the claim is false for add_edge and add_measurement: a quantity or attribute of a wrong type is noticed after the new ingredient or measurement has been linked (counterexamples); the _raises_partial theorems give the cases in which nothing is changed, and the _else theorems what can change at all. Level-dependent checks are a parameter."
  },
  {
   "property": "C51",
   "status": "partial",
   "theorems": [
    "Verif.MakeValue.C51_make_value",
    "Verif.MakeValue.C51_unknown_bounds",
    "Verif.MakeValue.C51_make_attribute",
    "Verif.MakeValue.C51_make_attribute_fatal",
    "Verif.MakeValue.C51_unknown_template",
    "Verif.MakeValue.C51_given_value_counterexample",
    "Verif.MakeValue.C51_raises"
   ],
   "note": "Model/MakeValue.lean follows make_value and make_attribute by kind of bounds. The first half is false at WARNING level for values that are already BaseValue objects of another kind (C51_given_value_counterexample); raw data always give a value of the kind of the bounds, and at FATAL level the attribute is within the bounds."
  },
  {
   "property": "C52",
   "status": "partial",
   "theorems": [
    "Verif.Cache.C52_transparent_partial",
    "Verif.Cache.C52_register_counterexample"
   ],
   "note": "Transparent as long as no abstract-base-class registration happens after the first query; negation proved for late registration."
  },
  {
   "property": "C53",
   "status": "partial",
   "theorems": [
    "Verif.Mangle.C53_nothing_lost",
    "Verif.Mangle.C53_unknown_operator",
    "Verif.Mangle.C53_blocks_partial",
    "Verif.Mangle.C53_signed_group_counterexample",
    "Verif.Mangle.C53_factor",
    "Verif.Mangle.C53_refused",
    "Verif.Mangle.C53_expression_partial"
   ],
   "note": "Blocks of every expression whose exponents are atoms, signed atoms or groups; negation proved for a sign before a group. Losslessness and the operator check hold for all token sequences. The text of the term and of the unit are part of the statement."
  },
  {
   "property": "C54",
   "status": "partial",
   "theorems": [
    "Verif.History.C54_history_partial",
    "Verif.History.C54_built_partial",
    "Verif.History.C54_scope_case_counterexample"
   ],
   "note": "Proved: for object graphs on which dumps succeeds by C43 (type-correct, no tuples or keys 'type', unambiguous ids, no link meaning an entity in reach, back-links up to date), and with freshly drawn ids that differ from each other and from those in use, complete_material_history returns exactly one record per entity in reach; each record is the entity's as_dict written as JSON with links in place of entities, and the run changes nothing but adding ids. C54_built_partial derives the condition on back-links for entities made by constructors. Missing: the excluded graphs; for ids that differ only in the case of their scopes the property is false (C54_scope_case_counterexample)."
  },
  {
   "property": "C55",
   "status": "partial",
   "theorems": [
    "Verif.VList.C55_validate_list_partial",
    "Verif.VList.C55_validate_str"
   ],
   "note": "validate_list partial: one-shot iterables are dropped silently."
  },
  {
   "property": "C56",
   "status": "proved",
   "theorems": [
    "Verif.Builders.C56_add_attribute",
    "Verif.Builders.C56_lists_stay"
   ],
   "note": "add_attribute on the entity memory, for any memory whose attribute lists are lists (proved of everything constructors make, and preserved by add_attribute, so it covers all sequences of calls). make_attribute (C51) and the level-dependent checks of the lists are parameters. A PropertyAndConditions object shared between two material specs is not modelled."
  },
  {
   "property": "C57",
   "status": "partial",
   "theorems": [
    "Verif.Json.C57_dumps",
    "Verif.Json.C57_raw_copy_partial",
    "Verif.Json.C57_no_cycle",
    "Verif.Json.C57_sharing_counterexample"
   ],
   "note": "Proved: raw_dumps returns exactly if no entity is nested in itself (C57_dumps), which is so whenever entities occur only in attributes meant for them (C57_no_cycle); raw_loads of what it wrote, into any memory, returns the value with new entities that are copies, attribute by attribute, and leaves what existed as it was (C57_raw_copy_partial). Partial: tuples (come back as lists) and dictionaries with a key 'type' (loading fails, see C46) are excluded. An entity occurring twice is copied twice (C57_sharing_counterexample)."
  },
  {
   "property": "C58",
   "status": "partial",
   "theorems": [
    "Verif.Substitute.C58_copy_equal_partial",
    "Verif.Substitute.C58_built_partial",
    "Verif.Substitute.C58_link_counterexample",
    "Verif.Substitute.C58_tuple_counterexample"
   ],
   "note": "For every Writable graph (as in C43) and for everything made by constructors (C58_built_partial) the copy is == to the original in both directions, and so is each entity to its copy, whatever the order of dictionaries. False when a link means an entity in reach (C58_link_counterexample) and for tuples (C58_tuple_counterexample)."
  },
  {
   "property": "C59",
   "status": "partial",
   "theorems": [
    "Verif.Substitute.C59_thin_partial",
    "Verif.Substitute.C59_tuple_counterexample"
   ],
   "note": "For all type-correct graphs without tuples and dictionary keys `type`, with entities only in the attributes meant for them. For tuples the claim is false (C59_tuple_counterexample)."
  },
  {
   "property": "C60",
   "status": "partial",
   "theorems": [
    "Verif.Inplace.C60_shared_process_counterexample",
    "Verif.Inplace.C60_pairs_counterexample",
    "Verif.Inplace.C60_state_agrees",
    "Verif.Inplace.C60_state",
    "Verif.Inplace.C60_raise_counterexample",
    "Verif.Inplace.C60_raise_below_counterexample",
    "Verif.Inplace.C60_objects_inplace_partial",
    "Verif.Inplace.C60_idempotent_partial",
    "Verif.Inplace.C60_no_cycle"
   ],
   "note": "Total correctness for all type-correct graphs without tuples in which no link leads back to the entity that contains it, and whose links stand for entities of the right class: what is returned, every attribute of every entity, types, and a second run (C60_idempotent_partial). Two-way links stay intact if no two materials end up with the same process; without that it is false (C60_shared_process_counterexample). For tuples it is false (C60_pairs_counterexample). That no link leads back follows from the classes setters accept when entities and links are only in attributes meant for them (C60_no_cycle). If it raises, the entities with their classes and ids are as before (C60_state), but attributes may have changed already, also in the entities below (C60_raise_counterexample, C60_raise_below_counterexample). Missing: cycles through other attributes; validation levels that raise; the state of a list in which something raises."
  },
  {
   "property": "C61",
   "status": "partial",
   "theorems": [
    "Verif.Inplace.C61_entity_partial",
    "Verif.Inplace.C61_value_partial",
    "Verif.Inplace.C61_equal_ingredients_counterexample",
    "Verif.Inplace.C61_value_ids",
    "Verif.Inplace.C61_entity_ids",
    "Verif.Inplace.C61_state_agrees",
    "Verif.Inplace.C61_state",
    "Verif.Inplace.C61_raise_counterexample"
   ],
   "note": "Total correctness for all type-correct graphs without tuples, if the entities in the value have ids as the scope asks (C61_entity_partial, C61_value_partial), for any ==, if no entity equal to x has a two-way link to the same entity; for the == of C33 it is enough that such entities have other uids (alone_of_uids). Without that it is false: the process forgets the wrong one of two equal ingredients (C61_equal_ingredients_counterexample). It succeeds exactly if each other entity has an id as the scope asks (C61_value_ids, C61_entity_ids). If it raises, the entities, their ids and what is not a back reference of the others are as before (C61_state), but attributes of the entity given may have changed already (C61_raise_counterexample). Missing: tuples; validation levels that raise; the state of a list in which something raises."
  },
  {
   "property": "C62",
   "status": "partial",
   "theorems": [
    "Verif.Inplace.C62_entity_partial",
    "Verif.Inplace.C62_restores_partial",
    "Verif.Inplace.C62_value_partial"
   ],
   "note": "Total correctness under the hypotheses of C60 and C61 together, for entities (C62_entity_partial, C62_restores_partial) and for other values (C62_value_partial). The index condition is met by make_index of a collection whose entities have different ids (finds_index). Two-way links: as in C60, no two materials may end up with the same process. Missing: tuples, cycles through attributes not meant for entities (see C60_no_cycle), validation levels that raise."
  },
  {
   "property": "C63",
   "status": "partial",
   "theorems": [
    "Verif.SetAlias.C63_raises",
    "Verif.SetAlias.C63_stores",
    "Verif.SetAlias.C63_reported",
    "Verif.SetAlias.C63_sets_kept",
    "Verif.SetAlias.C63_others_kept",
    "Verif.SetAlias.C63_update",
    "Verif.SetAlias.C63_update_apart",
    "Verif.SetAlias.C63_construct_apart",
    "Verif.SetAlias.C63_strings_partial",
    "Verif.SetAlias.C63_shared_set_counterexample"
   ],
   "note": "Non-interference, update and ownership are proved for all histories. That the categories stay strings needs that no setter call raised (a failing setter has stored its argument already) and that the program puts only strings into its sets (C63_strings_partial): a set given to bounds is not copied, so changing it changes all bounds that were given it, unchecked (C63_shared_set_counterexample)."
  },
  {
   "property": "C64",
   "status": "partial",
   "theorems": [
    "Verif.SciNotation.C64_value_partial",
    "Verif.SciNotation.C64_untouched",
    "Verif.SciNotation.C64_divisor_counterexample",
    "Verif.SciNotation.C64_exponent_counterexample",
    "Verif.SciNotation.C64_fraction_counterexample",
    "Verif.SciNotation.C64_tower_counterexample",
    "Verif.SciNotation.C64_broken_counterexample"
   ],
   "note": "Proved for all expressions in which no number before '* 10 ** k' is a divisor or an exponent, no fraction '.10' and no number with a signed exponent is raised to a power or multiplied with 10, and the exponents of 10 are not fractions or powers themselves (C64_value_partial). Each exclusion is needed: m/3*10^3 becomes m/3e3, m^2*10^3 becomes m^2e3, 1.10**2 becomes 1.1e2, 10**2**3 becomes 1e2**3, 1e-3*10**2 becomes 1e-3e2 (counterexamples). The regular expression is run by a model of Python's backtracking matcher (Model/Regex.lean), ASCII only; numbers are exact, the value of floats is not modelled. Numbers and names that touch (2m) are not covered."
  },
  {
   "property": "C65",
   "status": "partial",
   "theorems": [
    "Verif.Mangle.C65_expression",
    "Verif.Mangle.C65_preprocess_partial",
    "Verif.Mangle.C65_history_partial",
    "Verif.Mangle.C65_bare_partial",
    "Verif.Mangle.C65_repeated_counterexample",
    "Verif.Mangle.C65_digits_counterexample",
    "Verif.Mangle.C65_exponent_counterexample",
    "Verif.Mangle.C65_name_counterexample",
    "Verif.Mangle.C65_prefix_counterexample",
    "Verif.Mangle.C65_float_counterexample",
    "Verif.Mangle.C65_leading_counterexample",
    "Verif.Mangle.C65_history_counterexample"
   ],
   "note": "Proved from tokens to text for all expressions made of names without digits, powers of names, separators and unsigned decimal factors with units, in any number and after any such history, provided no term begins with another term (C65_preprocess_partial, C65_history_partial); a single factor without a unit (C65_bare_partial). Each restriction is needed: eight counterexamples, among them m/2/2, which becomes an expression in an undefined unit, g/2/m**2, psi/2/cmH2O, m/2 g/2 gal, and a name shared by -5 g and .5 g, so that the value depends on what was parsed first. pint's tokenizer, canonical names and values are parameters. The replacement is re.sub with the expression of the source, lookarounds included (C65_expression)."
  },
  {
   "property": "C66",
   "status": "proved",
   "theorems": [
    "Verif.Repr.C66_returns",
    "Verif.Repr.C66_shows",
    "Verif.Repr.C66_frame",
    "Verif.Repr.C66_built",
    "Verif.Repr.C66_own_notes"
   ],
   "note": "Proved for all graphs whose nested entities exist and whose back references are entities, links or lists of them (C66_returns), which holds for everything made by constructors (C66_built); what is shown (C66_shows) and what it depends on (C66_frame). A text is modelled by the tree it is printed from. An entity placed in its own notes makes repr fail (C66_own_notes)."
  },
  {
   "property": "C67",
   "status": "partial",
   "theorems": [
    "Verif.Assign.C67_well_typed",
    "Verif.Assign.C67_two_way_partial",
    "Verif.Assign.C67_back_references",
    "Verif.Assign.C67_effect",
    "Verif.Assign.C67_accepts_partial",
    "Verif.Assign.C67_round_trip_partial",
    "Verif.Assign.C67_copy_equal_partial",
    "Verif.Assign.C67_ids",
    "Verif.Assign.C67_repr",
    "Verif.Assign.C67_bounds_counterexample",
    "Verif.Assign.C67_shared_process_counterexample",
    "Verif.Assign.C67_equal_sibling_counterexample",
    "Verif.Assign.C67_refused_agrees",
    "Verif.Assign.C67_refused_well_typed",
    "Verif.Assign.C67_refused_back_references",
    "Verif.Assign.C67_refused_effect",
    "Verif.Assign.C67_refused_names",
    "Verif.Assign.C67_refused_forgets",
    "Verif.Assign.C67_refused_repr",
    "Verif.Assign.C67_refused_counterexample"
   ],
   "note": "Invariants over histories: C67_well_typed, C67_back_references, C67_repr hold for all histories; C67_effect for each assignment. C67_two_way_partial, C67_accepts_partial, C67_round_trip_partial and C67_copy_equal_partial need careful histories (one output per process, nothing moved away from an equal sibling); C67_shared_process_counterexample and C67_equal_sibling_counterexample show what happens otherwise, C67_bounds_counterexample why the bounds of templates are excluded. Assignments that raise: C67_refused_well_typed, C67_refused_back_references and C67_refused_repr hold for histories with these too, C67_refused_effect, C67_refused_names and C67_refused_forgets say what they change, and C67_refused_counterexample that two-way links do not survive them. Constructor calls that raise (see C26-C28 for the links they leave) and new attributes are not modelled; lists are changed by replacing their members (that ValidList checks each member is C03)."
  },
  {
   "property": "C68",
   "status": "proved",
   "theorems": [
    "Verif.Declared.C68_setter",
    "Verif.Declared.C68_constructor",
    "Verif.Declared.C68_refusal",
    "Verif.Declared.C68_new_accepts",
    "Verif.Declared.C68_new_stores",
    "Verif.Declared.C68_assignment",
    "Verif.Declared.C68_always",
    "Verif.Declared.C68_made",
    "Verif.Declared.C68_reversed"
   ],
   "note": "The specification (Stores, Doc, docE, Raises in Props/Declared.lean) is written from annotations, docstrings and setters without the functions of the model. Validation level as in C67; dict(quantities) of a list of pairs, floats that are not finite and arguments with names a constructor does not have are not modelled."
  },
  {
   "property": "C69",
   "status": "partial",
   "theorems": [
    "Verif.Checked.C69_ignore",
    "Verif.Checked.C69_levels_agree",
    "Verif.Checked.C69_refusal",
    "Verif.Checked.C69_link_counterexample",
    "Verif.Checked.C69_fatal_partial",
    "Verif.Checked.C69_warning_partial",
    "Verif.Checked.C69_absolute_fails"
   ],
   "note": "Model/Checked.lean adds the checks to loading; C69_ignore, C69_levels_agree and C69_refusal hold for all documents. C69_fatal_partial and C69_warning_partial hold for the graphs of C43. Membership and equality of templates are parameters (Judge) with the assumptions Fair, which C05-C11 and C31-C34 are about; a concrete judge meets them. C69_absolute_fails: a graph with an absolute quantity can never be read at FATAL. C69_link_counterexample: at WARNING an object template that lists a link, with an attribute without template, raises AttributeError."
  },
  {
   "property": "C70",
   "status": "partial",
   "theorems": [
    "Verif.Markup.C70_clean_ones",
    "Verif.Markup.C70_clean_again",
    "Verif.Markup.C70_latex_clean",
    "Verif.Markup.C70_latex_markup",
    "Verif.Markup.C70_clean",
    "Verif.Markup.C70_latex",
    "Verif.Markup.C70_elements_partial",
    "Verif.Markup.C70_elements_counterexample",
    "Verif.Markup.C70_expressions"
   ],
   "note": "The two substitutions are followed by hand on lists of characters, and proved to be re.sub with the expressions of the source (C70_expressions); what counts as a digit (\\d) is a parameter. C70_elements_partial needs that no lower case letter follows a 1; C70_elements_counterexample: C1o1 becomes Co."
  },
  {
   "property": "C71",
   "status": "proved",
   "theorems": [
    "Verif.Tables.C71_fingerprint",
    "Verif.Tables.C71_minimal",
    "Verif.Tables.C71_first",
    "Verif.Tables.C71_again",
    "Verif.Tables.C71_script"
   ],
   "note": "Fingerprints are the texts str(type(x)), joined. The files the script reads and writes are not modelled."
  },
  {
   "property": "C72",
   "status": "partial",
   "theorems": [
    "Verif.Tables.C72_display",
    "Verif.Tables.C72_display_accepts",
    "Verif.Tables.C72_display_raises",
    "Verif.Tables.C72_uncertainty_partial",
    "Verif.Tables.C72_uncertainty_fails"
   ],
   "note": "Numbers are rationals, the half and 0.29 exact. C72_uncertainty_partial: for units other than eV. C72_uncertainty_fails: in eV real_mapper computes the standard deviation from the value, so the reported uncertainty is lost."
  },
  {
   "property": "C73",
   "status": "partial",
   "theorems": [
    "Verif.Migrate.C73_applies",
    "Verif.Migrate.C73_old_symbol",
    "Verif.Migrate.C73_other_symbols",
    "Verif.Migrate.C73_symbol_counterexample"
   ],
   "note": "C73_applies, C73_old_symbol and C73_other_symbols hold for all classes and all sequences of decorators, failing ones included. The last sentence, from the documentation, is false: a new symbol that is neither value nor synonym raises ValueError (C73_symbol_counterexample). The decorator also prints a stray line, which is not modelled."
  },
  {
   "property": "C74",
   "status": "partial",
   "theorems": [
    "Verif.Version.C74_extract",
    "Verif.Version.C74_verdict",
    "Verif.Version.C74_status",
    "Verif.Version.C74_status_counterexample"
   ],
   "note": "The expression is run by the matcher of Model/Regex.lean and characterised (C74_extract). packaging's Version is a parameter; the order is that of packaging's sort key without epoch and local part, which the expression does not admit. The last sentence is false for status 1: a missing version ends the script with an exception, which also gives 1 (C74_status_counterexample)."
  },
  {
   "property": "C75",
   "status": "partial",
   "theorems": [
    "Verif.JsonText.C75_grammar",
    "Verif.JsonText.C75_rejects",
    "Verif.JsonText.C75_unambiguous",
    "Verif.JsonText.C75_text",
    "Verif.JsonText.C75_loads",
    "Verif.JsonText.C75_plain",
    "Verif.JsonText.C75_injective",
    "Verif.JsonText.C75_total",
    "Verif.JsonText.C75_truncated",
    "Verif.JsonText.C75_trailing",
    "Verif.JsonText.C75_ascii",
    "Verif.JsonText.C75_raises",
    "Verif.JsonText.C75_hex",
    "Verif.JsonText.C75_indented",
    "Verif.JsonText.C75_raw",
    "Verif.JsonText.C75_round_trip_partial"
   ],
   "note": "C75_grammar: exactly the texts of the JSON grammar (Says, a relation of its own) are read, as what they say; C75_rejects, C75_unambiguous. Proved for all trees, all styles with whitespace and all texts. The json module of CPython is modelled from its documented grammar and source, it is not in /repo; how floats are written and read is a parameter, of which it is asked that the numbers concerned are read as written (Faithful). C75_round_trip_partial has the hypotheses of C43_round_trip_partial. Lone surrogates, NaN and infinities, recursion and digit limits are not modelled."
  },
  {
   "property": "C76",
   "status": "partial",
   "theorems": [
    "Verif.Strehlow.C76_objects",
    "Verif.Strehlow.C76_table",
    "Verif.Strehlow.C76_display",
    "Verif.Strehlow.C76_accepts",
    "Verif.Strehlow.C76_unknown",
    "Verif.Strehlow.C76_lost_counterexample",
    "Verif.Strehlow.C76_once_partial",
    "Verif.Strehlow.C76_once_counterexample"
   ],
   "note": "C76_lost_counterexample: 'seen' holds the names of the data, not those of the templates, so a crystal system reported as a second 'Phase' is dropped (73 attributes of the shipped data). C76_once_partial gives a condition under which no template is used twice, C76_once_counterexample shows that it is needed. Reduced to names and values: bounds are not checked (the default level), tags, uids, origins and notes are left out; real_mapper is that of C72's model, and its result is a parameter of each attribute."
  },
  {
   "property": "C77",
   "status": "partial",
   "theorems": [
    "Verif.Ingest.C77_value",
    "Verif.Ingest.C77_ingest",
    "Verif.Ingest.C77_accepts",
    "Verif.Ingest.C77_spec_fails",
    "Verif.Ingest.C77_process_fails",
    "Verif.Ingest.C77_raises",
    "Verif.Ingest.C77_unit_counterexample",
    "Verif.Ingest.C77_table"
   ],
   "note": "C77_spec_fails: 'material.material_spec = ...' makes a new attribute, the spec of the run stays None. C77_process_fails: the recursive call for a list leaves out the process. C77_unit_counterexample: of '1 g / cm^3' the unit read is cm^3. C77_raises: '5 +-' is an IndexError. Parsing of numbers and units and the order of a set are parameters (with what is assumed of them in Sane); bounds of templates are not checked (the default level); booleans are numbers."
  },
  {
   "property": "C78",
   "status": "partial",
   "theorems": [
    "Verif.Cake.C78_runs",
    "Verif.Cake.C78_within",
    "Verif.Cake.C78_find",
    "Verif.Cake.C78_whole",
    "Verif.Cake.C78_recipe",
    "Verif.Cake.C78_measured",
    "Verif.Cake.C78_sugar_counterexample",
    "Verif.Cake.C78_volume_counterexample",
    "Verif.Cake.C78_ids",
    "Verif.Cake.C78_scopes",
    "Verif.Cake.C78_template_ids",
    "Verif.Cake.C78_scope_counterexample",
    "Verif.Cake.C78_allowed"
   ],
   "note": "C78_sugar_counterexample: the powdered sugar of the frosting is found first, so the sugar analysis is of it. C78_volume_counterexample: 0.01 * (fuzz - 0.5) is always positive, the means add up to 1.0135 to 1.0165. C78_scope_counterexample: the measurement template and the measurement spec of the doneness test both get the id 'doneness'. Numbers are rational; file links are left out, attributes are those of C80; runs stand to each other as the specs do (C48). The key is a digest of 32 characters without a dash."
  },
  {
   "property": "C79",
   "status": "partial",
   "theorems": [
    "Verif.Cake.C79_flexural",
    "Verif.Cake.C79_all",
    "Verif.Cake.C79_counterexample"
   ],
   "note": "C79_counterexample: the deflection 0. Numbers are rational, not floats (a deflection so small that the strain is 0 as a float is not modelled)."
  },
  {
   "property": "C80",
   "status": "partial",
   "theorems": [
    "Verif.Cake.C80_units",
    "Verif.Cake.C80_attributes",
    "Verif.Cake.C80_all",
    "Verif.Cake.C80_oven",
    "Verif.Cake.C80_measured",
    "Verif.Cake.C80_class",
    "Verif.Cake.C80_templates",
    "Verif.Cake.C80_unchecked_counterexample",
    "Verif.Cake.C80_quantities",
    "Verif.Cake.C80_fatal_counterexample"
   ],
   "note": "C80_fatal_counterexample: has_quantities.py:120-124 raises at FATAL even with no message, so no ingredient with an absolute quantity can be made. C80_unchecked_counterexample: the property 'Formula' has no template, and its object template lists 'Chemical Formula', so any value passes. Numbers are rational; units convert exactly, and of cup and teaspoon only the ratio is that of the units file."
  }
 ]
}
