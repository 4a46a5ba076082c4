{
 "C01": {
  "note": "Every history of operations refines a one-list specification (partial: update arguments that conflict with themselves and setdefault excluded; both excluded cases have counterexample theorems). C01_lookups: what holds of lookups after every history, these included."
 },
 "C02": {
  "note": "Constructor and item assignment are exact; C02_update says what update does in every state with every batch; it is atomic only when the batch does not conflict with itself (counterexample given)."
 },
 "C03": {
  "note": "Type invariant over histories; += and slice assignment reject/accept as the code does, with counterexamples for the strong statement."
 },
 "C04": {
  "note": "List effects and failure atomicity; one-shot iterators are consumed by the check (partial, proved as the code behaves)."
 },
 "C05": {
  "note": "Sound and complete against the set denotation for every unit system with invertible, order-preserving conversions. For a unit of negative scale the claim is false (C05_decreasing_unit_fails)."
 },
 "C06": {
  "note": "Containment is inclusion of denotations for the four other kinds."
 },
 "C07": {
  "note": "Reflexive on valid bounds, transitive across kinds and units (order-preserving units)."
 },
 "C08": {
  "note": "Least upper bound and the exact success condition. Non-mutation of the arguments holds by construction of the functional model."
 },
 "C09": {
  "note": "Equality with union and failure atomicity for every kind except molecular structure, whose update accepts anything (counterexample)."
 },
 "C10": {
  "note": "Invariant over all histories, failing steps included; the categories/components setters store before they validate (counterexample)."
 },
 "C11": {
  "note": "Full decision table."
 },
 "C12": {
  "note": "Least-bounds theorem for all value kinds; integer values not representable as floats have no bounds (counterexample)."
 },
 "C13": {
  "note": "False in general: ints that float() does not represent exactly are refused (2^53+1). The exact acceptance condition and the case |n| <= 2^53 are proved."
 },
 "C14": {
  "note": "For every lawful unit system; affine exact-rational systems with positive scale are shown lawful. IEEE rounding is not modelled."
 },
 "C15": {
  "note": "For every interleaving of calls and definition changes the answer is the one the current registry gives. Two negations proved: 1 and 1.0 share a key, so the type of a result may be stale; a conversion running between clearing the cache and installing the registry leaves a stale entry."
 },
 "C16": {
  "note": "Termination, identifiers without code unchanged, round trip of one factor with or without unit in any code-free context, injectivity. Five negations proved: leading dot, trailing dot, two factors one of which is a prefix of the other, lost sign, unit named like the exponent letter. The hand-written matchers are proved equal to the regular expressions of the source under the backtracking matcher of Model/Regex.lean, for unmangling (C16_expression) and for mangling (C16_expression_mangle)."
 },
 "C17": {
  "note": "Lookup is characterised exactly for every enumeration that can be created. Finding a member by each synonym fails when an earlier member shares it, and values declared with surrounding whitespace are never found (counterexamples)."
 },
 "C18": {
  "note": "The stored string always begins with InChI and setting it again is the identity. It may lack the = sign, and repeated markers in the body are rewritten (counterexamples)."
 },
 "C19": {
  "note": "Acceptance iff every token is in the table, for any table; bounds through any history; missing and empty formula. The tokens are those of re.findall with the expression of the source (C19_expression)."
 },
 "C20": {
  "note": "UniformInteger and DiscreteCategorical over all histories; UniformReal attributes are unchecked after construction (counterexample)."
 },
 "C21": {
  "note": "Proved for blocks left normally or by return, for every nesting; a block left by an exception keeps its level (negation proved)."
 },
 "C22": {
  "note": "Proved at FATAL over all histories when templates are objects; link templates and incomplete values are negated by witnesses."
 },
 "C23": {
  "note": "Invariant over all histories after the template is set. False if the template is assigned after the attributes, if a template is listed twice, or if a link is listed and the attribute has no template (negations proved)."
 },
 "C24": {
  "note": "Fractions: proved at all levels. Absolute quantities: at FATAL every absolute quantity is refused, which contradicts the claim (negation proved)."
 },
 "C25": {
  "note": "Invariant over all histories and decision theorem for lists and tuples. One-shot iterators are dropped unseen and a template of the wrong class is accepted inside a pair (negations proved)."
 },
 "C52": {
  "note": "Transparent as long as no abstract-base-class registration happens after the first query; negation proved for late registration."
 },
 "C53": {
  "note": "Blocks of every expression whose exponents are atoms, signed atoms or groups; negation proved for a sign before a group. Losslessness and the operator check hold for all token sequences. The text of the term and of the unit are part of the statement."
 },
 "C55": {
  "note": "validate_list partial: one-shot iterables are dropped silently."
 },
 "C26": {
  "note": "Invariant over all histories without failing assignments and without moving an ingredient that equals another of the same process; without the first restriction one direction and uniqueness remain. Negations proved for failing assignments and for equal ingredients. Class of the listed objects: all histories."
 },
 "C27": {
  "note": "For all histories the output material of a process names that process. The converse for histories without stealing and without failing assignments; negations proved for stealing, failing assignment and failing construction."
 },
 "C28": {
  "note": "As C26, for measurements and materials."
 },
 "C29": {
  "note": "Invariant over all histories of constructions and attempted assignments; disallowed assignments raise and leave the reference fields unchanged."
 },
 "C30": {
  "note": "For all histories: attached runs show the present name and labels of the spec, detached runs keep the last ones, loaded runs those of the dictionary; and the name and labels of an ingredient run cannot be set (C30_unset)."
 },
 "C36": {
  "note": "For every memory of entities, every value as argument and every callback that does not rewire the graph (it may raise): the loop ends and has called the callback on exactly the entities in the independently defined reach, once each - or, exactly if a tuple in reach contains a list or dictionary, on some of them, none twice, and then raises TypeError (C36_every_graph); C36_state adds the state that is left behind when a call or the tuple raises (Model/TraverseState.lean, which C36_agrees ties to the loop of Model/Traverse.lean). Counterexamples for such tuples and for lists that contain themselves, where the loop never ends."
 },
 "C37": {
  "note": "As C36, for both values of unidirectional; the result is the concatenation of the callback's results, or TypeError exactly if a tuple in reach contains a list or dictionary (C37_every_graph; counterexample)."
 },
 "C38": {
  "note": "Exact effect of set_uuids on every entity, each new id from a separate draw, second call changes nothing. It raises TypeError exactly if a tuple in reach contains a list or dictionary (C38_raises; counterexample); C38_state says what it has done to the entities by then."
 },
 "C31": {
  "note": "to_link returns the id stored under the requested scope (compared without case), or under some scope if fallback is allowed; raises exactly when there is none; from_entity adds an auto id only if needed."
 },
 "C32": {
  "note": "entity == link and entity == (scope, id) exactly when the entity carries the id under that scope up to case. Partial: a link whose id is None compares equal from one side only (counterexample), and == is not transitive through links (counterexample). LinkByUID hash is case sensitive while entity comparison is not."
 },
 "C33": {
  "note": "Termination for every finite graph, however cyclic, in which entities inside plain values (templates inside attributes) do not lead back; with entities only in lists meant for them, and no pairs such as (1, 2) to compare an entity with, no exception is raised. Counterexample: two objects each containing itself inside a nested list."
 },
 "C34": {
  "note": "Reflexivity is proved for all graphs. Equal entities have the same keys (so type), uids, scalars and list lengths. Copies up to identity and list order compare equal when non-corresponding members of the same list differ in uids. Missing/false: symmetry (two counterexamples), copies without uids (counterexample)."
 },
 "C46": {
  "note": "Every constructor of gemd's value classes is modelled by one table (arguments, defaults, setters). Proved for every value the constructors can return: the constructor called with the object's own fields returns the object (C46_constructor_fields); building from dump() and from as_dict() gives an equal value (C46_dump_build_partial, C46_as_dict_build_partial), the relation 'same' being finer than ==; for entities and values containing entities, building gives a copy made of new entities (C46_dump_build_entities_partial, C46_as_dict_build_entity_partial). Partial: keys called 'type' and tuples are excluded because the claim is false there (three counterexample theorems: building raises TypeError, a tuple comes back as a list), and so are entities nested in themselves. Assumed: parsing units is idempotent (C16) and enumeration members are their own text."
 },
 "C45": {
  "note": "Proved over the model of loads (hook of the JSON decoder with its index, any number of records): every link that was replaced points to an entity created by this call that carries its id (scope in lower case); unknown types are rejected with TypeError, dictionaries without \"type\" stay dictionaries, each record creates one new object and changes the class and uids of no other. Fields that are not arguments are ignored unless called \"self\" (counterexample proved: TypeError), so that part is _partial. Two records with the same id give two objects, and later links point to the later one (counterexamples proved)."
 },
 "C41": {
  "note": "Proved over the model of substitute_links (_substitute with its dictionary of results, to_link, as_dict/build of value objects and of the top-level entity through JSON): for every nested structure the result contains no entity at any depth, each has become a link whose id it carries in that scope, everything else is equal (alike: an independent relation), and memory is unchanged; for an entity the result is one new entity of the same class and uids with all as_dict attributes alike, older entities untouched. Hypotheses: values made by constructors, every entity occurring can be linked to (otherwise it raises: C41_unlinkable), no tuples (counterexample proved: a tuple and a link collide in the dictionary of results), no dictionary key \"type\", and an entity does not contain itself below its own attributes. Types of numbers are not preserved (counterexample proved: [1, True] becomes [1, 1])."
 },
 "C39": {
  "note": "flatten, with and without a scope: results are exactly one stripped copy of each entity kept, no shared ids, no entity left inside, inputs unchanged (set_uuids aside); an entity without id is a ValueError. Partial: no tuples, no entities in free attributes (notes, name...). Disagreements shown: entities sharing some but not all ids can lose an id altogether; ids whose scopes differ in case are both kept. For all inputs, whether flatten returns or raises (C39_state, C39_scope_state): existing entities are unchanged, except that with a scope those in reach without an id may have gained one, which stays if it raises (C39_ids_stay)."
 },
 "C40": {
  "note": "The result list: an object comes after every result that it links to, for type-correct links (mayPoint) and ids that determine the class; stable within a class. Partial for the same reasons as C39."
 },
 "C44": {
  "note": "No hypothesis on the memory. C44_dumps_keeps: when dumps returns, all entities keep class, fields and ids, except that one in reach without any id may have gained one. C44_loads_keeps: loads changes no existing entity. The same holds if dumps or thin_dumps raises (C44_dumps_state, C44_thin_state, C44_state_exact): ids that were given by then stay (C44_ids_stay). C44_loads_state: also if loads raises, existing entities are unchanged; the work of the constructor call that raises is not modelled there, only that of the calls before it."
 },
 "C43": {
  "note": "Proved: for object graphs with unambiguous ids (compared as loads does), no link meaning an entity in reach, back-links in agreement, no tuples and no dictionary key 'type', dumps succeeds and loads of its result (in any memory) yields new entities isomorphic to the original (class, ids, as_dict values, back-links); C43_built_partial derives the condition on back-links for entities made by constructors. Missing: the excluded graphs; for three of the exclusions the property is false and a counterexample is proved (link meaning an entity in reach, two materials with one process, tuples)."
 },
 "C47": {
  "note": "Proved for every sequence of class definitions (any bases, MROs and typ values, with DictSerializable's metaclass or with a foreign one) and of reads and edits of class_mapping: the registry of a class maps typ to the class most recently defined for it below the class' base, only ancestors share it, and the mapping returned to callers is a copy."
 },
 "C49": {
  "note": "Proved for every entity of every class in a well-typed memory whose text and number attributes (names, notes, bounds, ...), which the library does not check, hold no entities or links, as their documented types say: all_dependencies returns, without repetition, exactly the entities and links occurring in the attributes that the constructor takes. An example shows the behaviour outside that condition (a link stored in notes is not reported). The method resolution order and the traversal of base classes are modelled and computed."
 },
 "C48": {
  "note": "Model/Instance.lean follows make_instance's recursion with `seen`, with the setters of MaterialRun.process, IngredientRun.process and IngredientRun.material on an object memory. For every memory of well-formed specs (Specs, which specs_of_built proves of anything constructors make), the result is either a Mirror (one run per spec in the history, linked as the specs are, nothing else changed) or, exactly when the history contains a link, a TypeError with all existing entities unchanged. Python's recursion limit is not modelled; fuel larger than the number of entities is proved enough."
 },
 "C50": {
  "note": "Model/Builders.lean follows make_node, add_edge and add_measurement on the entity memory, with the memory after a raise. Success is characterized exactly (C50_make_node, C50_add_edge, C50_add_measurement: they succeed if and only if the documented inputs are given, and then link as documented and change only the ingredients/measurements lists named). The second half of the claim is false for add_edge and add_measurement: a quantity or attribute of a wrong type is noticed after the new ingredient or measurement has been linked (counterexamples); the _raises_partial theorems give the cases in which nothing is changed, and the _else theorems what can change at all. Level-dependent checks are a parameter."
 },
 "C51": {
  "note": "Model/MakeValue.lean follows make_value and make_attribute by kind of bounds. The first half is false at WARNING level for values that are already BaseValue objects of another kind (C51_given_value_counterexample); raw data always give a value of the kind of the bounds, and at FATAL level the attribute is within the bounds."
 },
 "C56": {
  "note": "add_attribute on the entity memory, for any memory whose attribute lists are lists (proved of everything constructors make, and preserved by add_attribute, so it covers all sequences of calls). make_attribute (C51) and the level-dependent checks of the lists are parameters. A PropertyAndConditions object shared between two material specs is not modelled."
 },
 "C57": {
  "note": "Proved: raw_dumps returns exactly if no entity is nested in itself (C57_dumps), which is so whenever entities occur only in attributes meant for them (C57_no_cycle); raw_loads of what it wrote, into any memory, returns the value with new entities that are copies, attribute by attribute, and leaves what existed as it was (C57_raw_copy_partial). Partial: tuples (come back as lists) and dictionaries with a key 'type' (loading fails, see C46) are excluded. An entity occurring twice is copied twice (C57_sharing_counterexample)."
 },
 "C35": {
  "note": "Proved: make_index returns, on cyclic graphs too, an index that gives for every (scope, id) an entity of the collection carrying it, or nothing if there is none (C35_index_partial); substitute_objects with any index returns the value in which links known to the index are replaced by copies of the entities, at any depth and inside nested entities, other links and values are kept, and existing entities are unchanged (C35_resolves_partial, C35_collection_partial). The condition Resolution asks that the resolved values are accepted by the constructors. Partial: copies and not the entities themselves are put in place (C35_copies_counterexample); tuples (C35_pairs_counterexample) and entities containing a link to themselves (C35_cycle_counterexample) are excluded because the claim fails there; inplace=True is C60."
 },
 "C42": {
  "note": "Proved: with an index that gives for the link of each entity that entity and knows no other link in the value, substitute_objects(substitute_links(v)) is a copy of v at every depth, for containers and values (C42_values_partial) and for an entity (C42_entity_partial); such an index is make_index of any collection whose entities have different ids and that contains the entities of v (C42_collection_partial, C42_entity_collection_partial). Partial: the entities restored are copies (as C35); tuples and entities nested in themselves are excluded; links by a scope spelled differently are not found again (C42_scope_counterexample); ids must be unambiguous (C42_ambiguous_counterexample); inplace=True is C62."
 },
 "C54": {
  "note": "Proved: for object graphs on which dumps succeeds by C43 (type-correct, no tuples or keys 'type', unambiguous ids, no link meaning an entity in reach, back-links up to date), and with freshly drawn ids that differ from each other and from those in use, complete_material_history returns exactly one record per entity in reach; each record is the entity's as_dict written as JSON with links in place of entities, and the run changes nothing but adding ids. C54_built_partial derives the condition on back-links for entities made by constructors. Missing: the excluded graphs; for ids that differ only in the case of their scopes the property is false (C54_scope_case_counterexample)."
 },
 "C58": {
  "note": "For every Writable graph (as in C43) and for everything made by constructors (C58_built_partial) the copy is == to the original in both directions, and so is each entity to its copy, whatever the order of dictionaries. False when a link means an entity in reach (C58_link_counterexample) and for tuples (C58_tuple_counterexample)."
 },
 "C59": {
  "note": "For all type-correct graphs without tuples and dictionary keys `type`, with entities only in the attributes meant for them. For tuples the claim is false (C59_tuple_counterexample)."
 },
 "C60": {
  "note": "Total correctness for all type-correct graphs without tuples in which no link leads back to the entity that contains it, and whose links stand for entities of the right class: what is returned, every attribute of every entity, types, and a second run (C60_idempotent_partial). Two-way links stay intact if no two materials end up with the same process; without that it is false (C60_shared_process_counterexample). For tuples it is false (C60_pairs_counterexample). That no link leads back follows from the classes setters accept when entities and links are only in attributes meant for them (C60_no_cycle). If it raises, the entities with their classes and ids are as before (C60_state), but attributes may have changed already, also in the entities below (C60_raise_counterexample, C60_raise_below_counterexample). Missing: cycles through other attributes; validation levels that raise; the state of a list in which something raises."
 },
 "C61": {
  "note": "Total correctness for all type-correct graphs without tuples, if the entities in the value have ids as the scope asks (C61_entity_partial, C61_value_partial), for any ==, if no entity equal to x has a two-way link to the same entity; for the == of C33 it is enough that such entities have other uids (alone_of_uids). Without that it is false: the process forgets the wrong one of two equal ingredients (C61_equal_ingredients_counterexample). It succeeds exactly if each other entity has an id as the scope asks (C61_value_ids, C61_entity_ids). If it raises, the entities, their ids and what is not a back reference of the others are as before (C61_state), but attributes of the entity given may have changed already (C61_raise_counterexample). Missing: tuples; validation levels that raise; the state of a list in which something raises."
 },
 "C62": {
  "note": "Total correctness under the hypotheses of C60 and C61 together, for entities (C62_entity_partial, C62_restores_partial) and for other values (C62_value_partial). The index condition is met by make_index of a collection whose entities have different ids (finds_index). Two-way links: as in C60, no two materials may end up with the same process. Missing: tuples, cycles through attributes not meant for entities (see C60_no_cycle), validation levels that raise."
 },
 "C63": {
  "note": "Non-interference, update and ownership are proved for all histories. That the categories stay strings needs that no setter call raised (a failing setter has stored its argument already) and that the program puts only strings into its sets (C63_strings_partial): a set given to bounds is not copied, so changing it changes all bounds that were given it, unchecked (C63_shared_set_counterexample)."
 },
 "C64": {
  "note": "Proved for all expressions in which no number before '* 10 ** k' is a divisor or an exponent, no fraction '.10' and no number with a signed exponent is raised to a power or multiplied with 10, and the exponents of 10 are not fractions or powers themselves (C64_value_partial). Each exclusion is needed: m/3*10^3 becomes m/3e3, m^2*10^3 becomes m^2e3, 1.10**2 becomes 1.1e2, 10**2**3 becomes 1e2**3, 1e-3*10**2 becomes 1e-3e2 (counterexamples). The regular expression is run by a model of Python's backtracking matcher (Model/Regex.lean), ASCII only; numbers are exact, the value of floats is not modelled. Numbers and names that touch (2m) are not covered."
 },
 "C65": {
  "note": "Proved from tokens to text for all expressions made of names without digits, powers of names, separators and unsigned decimal factors with units, in any number and after any such history, provided no term begins with another term (C65_preprocess_partial, C65_history_partial); a single factor without a unit (C65_bare_partial). Each restriction is needed: eight counterexamples, among them m/2/2, which becomes an expression in an undefined unit, g/2/m**2, psi/2/cmH2O, m/2 g/2 gal, and a name shared by -5 g and .5 g, so that the value depends on what was parsed first. pint's tokenizer, canonical names and values are parameters. The replacement is re.sub with the expression of the source, lookarounds included (C65_expression)."
 },
 "C66": {
  "note": "Proved for all graphs whose nested entities exist and whose back references are entities, links or lists of them (C66_returns), which holds for everything made by constructors (C66_built); what is shown (C66_shows) and what it depends on (C66_frame). A text is modelled by the tree it is printed from. An entity placed in its own notes makes repr fail (C66_own_notes)."
 },
 "C67": {
  "note": "Invariants over histories: C67_well_typed, C67_back_references, C67_repr hold for all histories; C67_effect for each assignment. C67_two_way_partial, C67_accepts_partial, C67_round_trip_partial and C67_copy_equal_partial need careful histories (one output per process, nothing moved away from an equal sibling); C67_shared_process_counterexample and C67_equal_sibling_counterexample show what happens otherwise, C67_bounds_counterexample why the bounds of templates are excluded. Assignments that raise: C67_refused_well_typed, C67_refused_back_references and C67_refused_repr hold for histories with these too, C67_refused_effect, C67_refused_names and C67_refused_forgets say what they change, and C67_refused_counterexample that two-way links do not survive them. Constructor calls that raise (see C26-C28 for the links they leave) and new attributes are not modelled; lists are changed by replacing their members (that ValidList checks each member is C03)."
 },
 "C68": {
  "note": "The specification (Stores, Doc, docE, Raises in Props/Declared.lean) is written from annotations, docstrings and setters without the functions of the model. Validation level as in C67; dict(quantities) of a list of pairs, floats that are not finite and arguments with names a constructor does not have are not modelled."
 },
 "C69": {
  "note": "Model/Checked.lean adds the checks to loading; C69_ignore, C69_levels_agree and C69_refusal hold for all documents. C69_fatal_partial and C69_warning_partial hold for the graphs of C43. Membership and equality of templates are parameters (Judge) with the assumptions Fair, which C05-C11 and C31-C34 are about; a concrete judge meets them. C69_absolute_fails: a graph with an absolute quantity can never be read at FATAL. C69_link_counterexample: at WARNING an object template that lists a link, with an attribute without template, raises AttributeError."
 },
 "C70": {
  "note": "The two substitutions are followed by hand on lists of characters, and proved to be re.sub with the expressions of the source (C70_expressions); what counts as a digit (\\d) is a parameter. C70_elements_partial needs that no lower case letter follows a 1; C70_elements_counterexample: C1o1 becomes Co."
 },
 "C71": {
  "note": "Fingerprints are the texts str(type(x)), joined. The files the script reads and writes are not modelled."
 },
 "C72": {
  "note": "Numbers are rationals, the half and 0.29 exact. C72_uncertainty_partial: for units other than eV. C72_uncertainty_fails: in eV real_mapper computes the standard deviation from the value, so the reported uncertainty is lost."
 },
 "C73": {
  "note": "C73_applies, C73_old_symbol and C73_other_symbols hold for all classes and all sequences of decorators, failing ones included. The last sentence, from the documentation, is false: a new symbol that is neither value nor synonym raises ValueError (C73_symbol_counterexample). The decorator also prints a stray line, which is not modelled."
 },
 "C74": {
  "note": "The expression is run by the matcher of Model/Regex.lean and characterised (C74_extract). packaging's Version is a parameter; the order is that of packaging's sort key without epoch and local part, which the expression does not admit. The last sentence is false for status 1: a missing version ends the script with an exception, which also gives 1 (C74_status_counterexample)."
 },
 "C75": {
  "note": "C75_grammar: exactly the texts of the JSON grammar (Says, a relation of its own) are read, as what they say; C75_rejects, C75_unambiguous. Proved for all trees, all styles with whitespace and all texts. The json module of CPython is modelled from its documented grammar and source, it is not in /repo; how floats are written and read is a parameter, of which it is asked that the numbers concerned are read as written (Faithful). C75_round_trip_partial has the hypotheses of C43_round_trip_partial. Lone surrogates, NaN and infinities, recursion and digit limits are not modelled."
 },
 "C76": {
  "note": "C76_lost_counterexample: 'seen' holds the names of the data, not those of the templates, so a crystal system reported as a second 'Phase' is dropped (73 attributes of the shipped data). C76_once_partial gives a condition under which no template is used twice, C76_once_counterexample shows that it is needed. Reduced to names and values: bounds are not checked (the default level), tags, uids, origins and notes are left out; real_mapper is that of C72's model, and its result is a parameter of each attribute."
 },
 "C77": {
  "note": "C77_spec_fails: 'material.material_spec = ...' makes a new attribute, the spec of the run stays None. C77_process_fails: the recursive call for a list leaves out the process. C77_unit_counterexample: of '1 g / cm^3' the unit read is cm^3. C77_raises: '5 +-' is an IndexError. Parsing of numbers and units and the order of a set are parameters (with what is assumed of them in Sane); bounds of templates are not checked (the default level); booleans are numbers."
 },
 "C78": {
  "note": "C78_sugar_counterexample: the powdered sugar of the frosting is found first, so the sugar analysis is of it. C78_volume_counterexample: 0.01 * (fuzz - 0.5) is always positive, the means add up to 1.0135 to 1.0165. C78_scope_counterexample: the measurement template and the measurement spec of the doneness test both get the id 'doneness'. Numbers are rational; file links are left out, attributes are those of C80; runs stand to each other as the specs do (C48). The key is a digest of 32 characters without a dash."
 },
 "C79": {
  "note": "C79_counterexample: the deflection 0. Numbers are rational, not floats (a deflection so small that the strain is 0 as a float is not modelled)."
 },
 "C80": {
  "note": "C80_fatal_counterexample: has_quantities.py:120-124 raises at FATAL even with no message, so no ingredient with an absolute quantity can be made. C80_unchecked_counterexample: the property 'Formula' has no template, and its object template lists 'Chemical Formula', so any value passes. Numbers are rational; units convert exactly, and of cup and teaspoon only the ratio is that of the units file."
 }
}