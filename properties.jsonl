{"id": "C01", "title": "Case-insensitive mapping semantics", "statement": "After any history of construction, item assignment, deletion, pop, popitem, clear, update and copy on a CaseInsensitiveDict, `d[k]`, `k in d`, `d.get(k)` and `d.pop(k)` answer exactly as a plain map keyed by the lower-cased key would; iteration yields each stored key once, in the casing it was stored with, and no two stored keys differ only by case.", "quantifier": "every finite history of the listed operations, every key and value, every lower-casing function", "why_tests_cant": "A unit test fixes one history; the two internal dictionaries can drift apart only after particular interleavings of operations.", "anchors": ["gemd/entity/case_insensitive_dict.py: CaseInsensitiveDict (all methods)"]}
{"id": "C02", "title": "Case conflicts are rejected and leave the mapping untouched", "statement": "Storing a key whose lower-case form is already present under another casing raises ValueError, and a failed construction, assignment or update leaves the mapping exactly as it was.", "quantifier": "every reachable mapping, every assignment and every update batch", "why_tests_cant": "Atomicity must hold for every batch, including batches that conflict with themselves, which example tests do not enumerate.", "anchors": ["gemd/entity/case_insensitive_dict.py: __setitem__, update, _register_key"]}
{"id": "C03", "title": "Validated lists only ever hold accepted values", "statement": "After any history of construction, item assignment, append, extend, insert and deletion, every element of a ValidList is an instance of the declared content types (given that the trigger maps accepted values to accepted values or to None).", "quantifier": "every history of operations, every content-type set, every trigger", "why_tests_cant": "It is an invariant over unbounded histories; a test sees a handful of calls.", "anchors": ["gemd/entity/valid_list.py: ValidList"]}
{"id": "C04", "title": "Validated list mutations are all-or-nothing and otherwise equal the plain list operation", "statement": "A mutation that raises leaves the list unchanged; one that succeeds gives exactly the plain list operation applied to the incoming elements, each replaced by the trigger's result when that is not None, with the trigger called once per element in order; nothing supplied by the caller is silently dropped.", "quantifier": "every list state, every mutation, every argument (lists as well as one-shot iterators)", "why_tests_cant": "Elements can be lost or half-applied only for particular argument kinds or failing positions; tests sample few of these.", "anchors": ["gemd/entity/valid_list.py: __init__, __setitem__, append, extend, insert", "gemd/entity/setters.py: validate_list"]}
{"id": "C05", "title": "Real-bounds containment is interval inclusion after unit conversion", "statement": "`RealBounds(l,u,U).contains(RealBounds(l2,u2,V))` is True exactly when U and V are commensurable and every quantity between l2 V and u2 V lies between l U and u U; otherwise it is False and never an exception.", "quantifier": "all bounds, all unit systems with strictly increasing conversions (scaled and offset units)", "why_tests_cant": "Soundness and completeness range over a continuum of quantities and over all pairs of units.", "anchors": ["gemd/entity/bounds/real_bounds.py: contains, _convert_bounds"]}
{"id": "C06", "title": "Containment of integer, categorical, composition and molecular bounds is set inclusion", "statement": "For integer, categorical, composition and molecular-structure bounds, `a.contains(b)` is True exactly when b is of the same kind and every value admitted by b is admitted by a.", "quantifier": "all pairs of bounds of all kinds", "why_tests_cant": "Equivalence with set inclusion ranges over all category sets and all intervals.", "anchors": ["gemd/entity/bounds/integer_bounds.py: contains", "gemd/entity/bounds/categorical_bounds.py: contains", "gemd/entity/bounds/composition_bounds.py: contains", "gemd/entity/bounds/molecular_structure_bounds.py: contains"]}
{"id": "C07", "title": "Containment is a preorder", "statement": "Every valid bounds contains itself, and if a contains b and b contains c then a contains c, across all kinds and units.", "quantifier": "all triples of bounds", "why_tests_cant": "Transitivity relates three arbitrary objects and chained unit conversions.", "anchors": ["gemd/entity/bounds/*.py: contains"]}
{"id": "C08", "title": "Union is the least upper bound", "statement": "When `a.union(b1,...,bn)` succeeds, the result contains a and every bi, is contained in every bounds containing all of them, and neither a nor any bi is modified; it succeeds exactly when all arguments are bounds or values of the same kind (and, for reals, of commensurable units), otherwise it raises.", "quantifier": "all receivers, all argument lists of bounds and values", "why_tests_cant": "Minimality quantifies over all competing upper bounds, and the argument list has arbitrary length.", "anchors": ["gemd/entity/bounds/*.py: union"]}
{"id": "C09", "title": "Update is the in-place union and does nothing on failure", "statement": "After `a.update(...)`, a equals what `a.union(...)` would have returned, in a's own units; if the update raises, a is unchanged.", "quantifier": "all receivers and argument lists", "why_tests_cant": "Failure atomicity has to hold at each assignment within the update for each argument list.", "anchors": ["gemd/entity/bounds/*.py: update"]}
{"id": "C10", "title": "Bounds are always well formed", "statement": "Whatever sequence of constructor calls, attribute assignments and updates is performed, successful or not, a bounds object always has lower <= upper (real, integer), or a set consisting only of strings (categorical, composition); a rejected assignment leaves the bounds unchanged.", "quantifier": "all histories of attribute assignments, including rejected ones", "why_tests_cant": "Setters check one field against the other, so validity is an invariant over histories, not over single calls.", "anchors": ["gemd/entity/bounds/real_bounds.py: lower_bound, upper_bound setters", "gemd/entity/bounds/integer_bounds.py: setters", "gemd/entity/bounds/categorical_bounds.py: categories setter", "gemd/entity/bounds/composition_bounds.py: components setter"]}
{"id": "C11", "title": "Containment dispatch", "statement": "For every bounds b: `b.contains(None)` is False; for a value v, `b.contains(v)` equals `b.contains(v's smallest bounds)`; for a bounds of another kind it is False; for anything else it raises TypeError.", "quantifier": "all bounds, all argument kinds", "why_tests_cant": "The decision table spans all bounds kinds times all argument kinds.", "anchors": ["gemd/entity/bounds/base_bounds.py: contains"]}
{"id": "C12", "title": "A value's bounds are the smallest bounds containing it", "statement": "For every value with its required content, the bounds derived from it contain the value, and any bounds that contains the value contains those bounds; every outcome possible under the value's distribution support (uniform ranges, categories with non-zero probability, components) is admitted.", "quantifier": "all values of all kinds, all competing bounds", "why_tests_cant": "Minimality ranges over all other bounds.", "anchors": ["gemd/entity/value/*.py: _to_bounds"]}
{"id": "C13", "title": "Integer bounds accept every integer", "statement": "Assigning any Python int as a bound of IntegerBounds stores exactly that int (subject to lower <= upper) and never rejects it as non-integral.", "quantifier": "all integers", "why_tests_cant": "Integers above 2^53 behave differently from small ones; sampling small integers cannot show it.", "anchors": ["gemd/entity/bounds/integer_bounds.py: lower_bound, upper_bound setters"]}
{"id": "C14", "title": "Unit conversion is coherent", "statement": "For commensurable units, converting a value to other units and back is the identity, converting through an intermediate unit equals direct conversion, conversion preserves order, and conversion between incommensurable units always raises; hence containment does not depend on the units in which either bounds is expressed.", "quantifier": "all values, all triples of units of a linear/offset unit system", "why_tests_cant": "The laws quantify over all values and all triples of units.", "anchors": ["gemd/units/impl.py: convert_units", "gemd/entity/bounds/real_bounds.py: contains"]}
{"id": "C15", "title": "Unit caches never return stale answers", "statement": "Over any history of conversions, parses and changes of the definitions file, each cached result equals the result that would be computed afresh under the definitions currently in force, including when cache entries are evicted.", "quantifier": "all histories of calls and definition changes, all cache sizes", "why_tests_cant": "Staleness arises from particular interleavings of evictions and definition changes.", "anchors": ["gemd/units/impl.py: convert_units, parse_units, get_base_units, change_definitions_file"]}
{"id": "C16", "title": "Scaling-factor unit names survive mangling", "statement": "A numeric scaling factor embedded in a unit expression and encoded as an identifier for the parser is decoded back to the same number, for every decimal numeral; decoding always terminates and leaves identifiers without encoded factors unchanged.", "quantifier": "all decimal numerals (sign, fraction, exponent) and all identifiers", "why_tests_cant": "The encoding is a string rewriting over unbounded strings.", "anchors": ["gemd/units/impl.py: _scaling_store_and_mangle, _unmangle_scaling"]}
{"id": "C17", "title": "Enumeration lookup", "statement": "For every enumeration and every string, lookup returns the unique member having that string (ignoring case and surrounding whitespace) among its value and synonyms, or None/ValueError per the flag when there is none; every member is found by its own value and by each synonym; None and members pass through.", "quantifier": "all enumerations accepted by the class constructor, all strings", "why_tests_cant": "Uniqueness depends on the combination of all members' synonyms.", "anchors": ["gemd/enumeration/base_enumeration.py: BaseEnumeration"]}
{"id": "C18", "title": "InChI normalisation", "statement": "Setting an InChI stores a string that begins with `InChI=`; setting a stored string again stores the same string; and apart from its prefix the stored string is the string supplied.", "quantifier": "all strings", "why_tests_cant": "It ranges over all strings, including those whose body repeats the prefix characters.", "anchors": ["gemd/entity/value/inchi_value.py: inchi setter"]}
{"id": "C19", "title": "Empirical formulas mention only known elements", "statement": "A formula is accepted exactly when every capitalised token in it is an element of the periodic table; the derived bounds list exactly those elements; and the empty or missing formula is handled as documented.", "quantifier": "all strings", "why_tests_cant": "It ranges over all strings, with greedy tokenisation.", "anchors": ["gemd/entity/value/empirical_formula.py: EmpiricalFormula"]}
{"id": "C20", "title": "Distribution values keep their own constraints", "statement": "Through every history of assignments: a UniformInteger always has lower <= upper; DiscreteCategorical probabilities sum to one within tolerance; UniformReal has lower <= upper.", "quantifier": "all histories of attribute assignments", "why_tests_cant": "Invariants over histories; constructors alone are tested.", "anchors": ["gemd/entity/value/uniform_integer.py", "gemd/entity/value/discrete_categorical.py", "gemd/entity/value/uniform_real.py"]}
{"id": "C21", "title": "The validation level is scoped", "statement": "`with validation_level(l)` puts level l in force for exactly the duration of its block, for every nesting of blocks, and on exit the previous level is back in force, however the block ends.", "quantifier": "all nestings of blocks and assignments, with normal or exceptional exit", "why_tests_cant": "It quantifies over all program structures and exception points.", "anchors": ["gemd/entity/bounds_validation.py"]}
{"id": "C22", "title": "Attribute values respect their template's bounds", "statement": "With level FATAL throughout, after any history of assignments to value and template of an attribute, a value and a template object present together always satisfy the template's bounds, and rejected assignments change nothing; with WARNING the assignment always succeeds and warns exactly when out of bounds; with IGNORE it always succeeds silently.", "quantifier": "all histories of assignments, all levels, all values/templates", "why_tests_cant": "The invariant involves both assignment orders and their interleavings.", "anchors": ["gemd/entity/attribute/base_attribute.py"]}
{"id": "C23", "title": "Object attributes are checked against the object's template", "statement": "With level FATAL, after any history of template assignment and attribute assignment/append on an object, each attribute whose attribute template is listed in the object's template satisfies the narrowed bounds listed there; attributes not listed, and links, are not restricted.", "quantifier": "all histories", "why_tests_cant": "Two independently mutable sides (attribute list and template) must agree after every interleaving.", "anchors": ["gemd/entity/object/has_template_check_generator.py", "gemd/entity/template/has_condition_templates.py: validate_condition", "gemd/entity/object/has_conditions.py"]}
{"id": "C24", "title": "Ingredient quantities are checked", "statement": "A fraction (mass, volume, number) is accepted at FATAL level exactly when it is None or a dimensionless real value within [0,1]; an absolute quantity is accepted exactly when it is None or a real value whose units are commensurable with amount, mass or volume; a rejected assignment changes nothing.", "quantifier": "all values, all levels, all histories", "why_tests_cant": "It ranges over all values and units at each level.", "anchors": ["gemd/entity/object/has_quantities.py"]}
{"id": "C25", "title": "Attribute ranges of object templates lie within the attribute template's bounds", "statement": "Every entry of an object template's conditions/parameters/properties is a pair [attribute template or link, bounds or None], and bounds given with an attribute-template object are contained in that template's bounds, whatever shape the caller supplied; input that is not of an accepted shape is rejected.", "quantifier": "all accepted and rejected input shapes, all histories", "why_tests_cant": "The accepted input shapes (single object, pair, list of mixtures) form an unbounded family.", "anchors": ["gemd/entity/template/base_template.py: _homogenize_ranges", "gemd/entity/template/has_condition_templates.py"]}
{"id": "C26", "title": "Ingredients and processes point at each other", "statement": "After any history of object construction and `process` assignment on ingredients, an ingredient's process is p exactly when p lists the ingredient, exactly once.", "quantifier": "all histories over any number of objects", "why_tests_cant": "The invariant must survive every interleaving of reassignments, unlinkings and failed assignments.", "anchors": ["gemd/entity/object/ingredient_run.py: process setter", "gemd/entity/object/ingredient_spec.py: process setter", "gemd/entity/object/process_run.py", "gemd/entity/object/process_spec.py"]}
{"id": "C27", "title": "Materials and processes are linked one to one", "statement": "After any history of object construction and `process` assignment on materials, a material's process is p exactly when p's output material is that material.", "quantifier": "all histories over any number of objects", "why_tests_cant": "Stealing, re-linking and failing assignments interleave arbitrarily.", "anchors": ["gemd/entity/object/material_run.py: process setter", "gemd/entity/object/material_spec.py: process setter"]}
{"id": "C28", "title": "Measurements and materials point at each other", "statement": "After any history of construction and `material` assignment on measurements, a measurement's material is m exactly when m lists the measurement, exactly once.", "quantifier": "all histories over any number of objects", "why_tests_cant": "As for ingredients: interleavings of reassignments.", "anchors": ["gemd/entity/object/measurement_run.py: material setter", "gemd/entity/object/material_run.py: measurements"]}
{"id": "C29", "title": "References are type safe", "statement": "Whatever assignments are attempted, each reference field (spec, template, process, material, ...) of an object holds None, a link, or an object of the declared class; other assignments raise TypeError.", "quantifier": "all histories of attempted assignments", "why_tests_cant": "It is an invariant over unbounded histories of arbitrary values.", "anchors": ["gemd/entity/object/has_spec.py", "gemd/entity/object/has_template.py", "gemd/entity/object/*_run.py"]}
{"id": "C30", "title": "An ingredient run's name and labels are those of its spec", "statement": "Whenever an ingredient run's spec is an ingredient-spec object, its name and labels equal the spec's current ones; name and labels of a serialised run survive loading when the spec is only a link.", "quantifier": "all histories of spec assignment and spec renaming", "why_tests_cant": "Aliasing between the run and a later-mutated spec.", "anchors": ["gemd/entity/object/ingredient_run.py: name, labels, spec, from_dict"]}
{"id": "C31", "title": "Links identify their entity", "statement": "`e.to_link(...)` and `LinkByUID.from_entity(e, ...)` return a scope/id pair that e has, preferring the requested scope, and the link compares equal to e; to_link never modifies e and raises ValueError exactly when e has no suitable uid; from_entity adds a uid exactly when e has none.", "quantifier": "all entities, all scopes and casings", "why_tests_cant": "It ranges over all uid maps and scope spellings.", "anchors": ["gemd/entity/base_entity.py: to_link", "gemd/entity/link_by_uid.py: from_entity"]}
{"id": "C32", "title": "Comparisons among links, pairs and entities agree", "statement": "Comparing an entity with a link or a (scope, id) pair gives the same answer in both directions; equal links hash equally; a link equals an entity exactly when the entity carries that id under that scope (ignoring the scope's case).", "quantifier": "all links, pairs and uid maps", "why_tests_cant": "Coherence of several independently written comparison methods over all inputs.", "anchors": ["gemd/entity/base_entity.py: __eq__", "gemd/entity/link_by_uid.py: __eq__, __hash__"]}
{"id": "C33", "title": "Entity equality terminates on every object graph", "statement": "`a == b` on entities returns after finitely many steps for every object graph, however cyclic.", "quantifier": "all finite object graphs", "why_tests_cant": "Cyclic graphs of arbitrary shape.", "anchors": ["gemd/entity/base_entity.py: _cached_equals"]}
{"id": "C34", "title": "Entity equality is an equivalence", "statement": "`==` on entities is reflexive and symmetric; equal entities have the same type, equal uids and equal scalar fields; and two graphs that are the same up to the identity of the objects and the order within lists compare equal.", "quantifier": "all pairs of entities in all object graphs", "why_tests_cant": "Symmetry and soundness range over pairs of arbitrary graphs, with a cache whose content depends on traversal order.", "anchors": ["gemd/entity/base_entity.py: _cached_equals, __eq__"]}
{"id": "C35", "title": "Link resolution by index", "statement": "Substituting objects for links with an index built from a collection of entities replaces every link whose (scope, id) some entity in the collection carries by an entity carrying it, and leaves every other link and every non-link value as it was.", "quantifier": "all nested structures, all collections", "why_tests_cant": "It ranges over arbitrarily nested structures.", "anchors": ["gemd/util/impl.py: make_index, substitute_objects, _substitute"]}
{"id": "C36", "title": "Recursive iteration visits every reachable entity exactly once and terminates", "statement": "`recursive_foreach` applies the function to every entity reachable from the argument through attributes and containers, exactly once each, and terminates on cyclic graphs.", "quantifier": "all object graphs", "why_tests_cant": "Reachability in arbitrary (cyclic, shared) graphs.", "anchors": ["gemd/util/impl.py: recursive_foreach"]}
{"id": "C37", "title": "Recursive flat-mapping collects every reachable entity exactly once", "statement": "`recursive_flatmap` returns the concatenation of the function's results over every reachable entity, each once, following only writable links when `unidirectional`; it terminates on cyclic graphs.", "quantifier": "all object graphs, both directions settings", "why_tests_cant": "As above; termination depends on where cycles pass.", "anchors": ["gemd/util/impl.py: recursive_flatmap"]}
{"id": "C38", "title": "Assigning ids", "statement": "After set_uuids(x, scope), every reachable entity has at least one id; entities that already had an id are not changed at all, the others gain exactly one id, under that scope, freshly drawn; nothing else is changed, and calling it again changes nothing.", "quantifier": "all object graphs, all id supplies", "why_tests_cant": "All reachable entities in all graphs.", "anchors": ["gemd/util/impl.py: set_uuids"]}
{"id": "C39", "title": "Flattening is complete and duplicate-free", "statement": "`flatten(x)` returns, for every entity reachable from x, exactly one stripped copy carrying its uids (entities sharing an id being one), no two results share an id, no result contains a pointer to an entity, and the input objects keep their links.", "quantifier": "all object graphs", "why_tests_cant": "All graphs; duplicates depend on traversal order.", "anchors": ["gemd/util/impl.py: flatten"]}
{"id": "C40", "title": "Writable order respects dependencies", "statement": "In the list returned by flatten, an object appears after every object it links to, for every object graph whose links are type-correct; the order is stable within a class.", "quantifier": "all type-correct object graphs", "why_tests_cant": "It is a topological-order statement over all graphs.", "anchors": ["gemd/util/impl.py: writable_sort_order, flatten"]}
{"id": "C41", "title": "Link substitution removes every pointer", "statement": "After substitute_links, no entity occurs below the top-level object in the result; each is replaced by a link that it equals; every other value is kept; the input is not mutated.", "quantifier": "all nested structures", "why_tests_cant": "Arbitrarily nested structures.", "anchors": ["gemd/util/impl.py: substitute_links, _substitute"]}
{"id": "C42", "title": "Substituting links then objects is the identity", "statement": "Replacing entities by links and then links by the entities they came from restores the original structure, provided ids are unambiguous.", "quantifier": "all nested structures, all unambiguous collections", "why_tests_cant": "Round-trip over unbounded structures.", "anchors": ["gemd/util/impl.py: substitute_links, substitute_objects"]}
{"id": "C43", "title": "Serialisation round trip", "statement": "`loads(dumps(x))` rebuilds an object graph isomorphic to the graph reachable from x (all fields, uids, links and back-links; order of back-reference lists aside), for every type-correct graph whose entities have unambiguous ids.", "quantifier": "all type-correct object graphs", "why_tests_cant": "A refinement statement over all graphs, including cyclic links and shared objects.", "anchors": ["gemd/json/gemd_json.py: dumps, loads, _load_and_index", "gemd/util/impl.py"]}
{"id": "C44", "title": "Serialisation does not change its argument", "statement": "`dumps(x)` leaves the reachable object graph unchanged except that entities without uids in the scope may gain one generated id.", "quantifier": "all object graphs", "why_tests_cant": "Every object in every graph.", "anchors": ["gemd/json/gemd_json.py: dumps"]}
{"id": "C45", "title": "Loading resolves ids consistently", "statement": "While loading, two records with the same id (scope ignoring case) yield one object; a link to an already loaded object yields that object; other links stay links; an unknown type raises TypeError; fields that are not constructor arguments are ignored; dictionaries without a type are returned as they are.", "quantifier": "all JSON documents", "why_tests_cant": "All documents, including ill-formed ones.", "anchors": ["gemd/json/gemd_json.py: _load_and_index", "gemd/entity/dict_serializable.py: from_dict"]}
{"id": "C46", "title": "Attribute and value objects round-trip through dictionaries", "statement": "For every non-entity object (values, bounds, attributes, sources, links), building from its dump yields an equal object, and building from its as_dict calls the constructor with exactly its fields.", "quantifier": "all values, bounds, attributes", "why_tests_cant": "Ranges over all nested values.", "anchors": ["gemd/entity/dict_serializable.py: as_dict, from_dict, build, __eq__"]}
{"id": "C47", "title": "Class registration", "statement": "Over any sequence of class definitions, each type string maps to the most recently defined class claiming it, and a class may only take over a type string from an ancestor; the mapping handed to users cannot be used to alter the registry; skip sets are the union of those of all ancestors.", "quantifier": "all sequences of class definitions", "why_tests_cant": "All class hierarchies.", "anchors": ["gemd/entity/dict_serializable.py: DictSerializableMeta"]}
{"id": "C48", "title": "Making an instance keeps the family tree consistent", "statement": "`make_instance(spec)` produces runs mirroring the spec graph: one run per reachable spec, each run's spec is its source, and links between runs mirror those between specs.", "quantifier": "all spec graphs (including shared intermediates)", "why_tests_cant": "Arbitrary shared graphs.", "anchors": ["gemd/entity/util.py: make_instance"]}
{"id": "C49", "title": "Dependencies are complete", "statement": "`all_dependencies()` of an object returns exactly the entities and links directly referenced by its writable fields.", "quantifier": "all objects of all classes", "why_tests_cant": "All field contents for each class.", "anchors": ["gemd/entity/base_entity.py: all_dependencies", "gemd/entity/object/*.py: _local_dependencies"]}
{"id": "C50", "title": "Builders preserve linkage", "statement": "add_edge, add_measurement and make_node produce objects linked as documented for all accepted inputs, and leave previously linked objects unchanged when they raise for wrong argument types.", "quantifier": "all inputs", "why_tests_cant": "All combinations of run/spec arguments and already linked objects.", "anchors": ["gemd/builders/impl.py"]}
{"id": "C51", "title": "Constructed values fit the template's kind", "statement": "make_value / make_attribute return a value of the kind of the template's bounds holding the given data, or raise; for FATAL level the resulting attribute is within bounds.", "quantifier": "all bounds and inputs", "why_tests_cant": "All inputs.", "anchors": ["gemd/builders/impl.py: make_value, make_attribute"]}
{"id": "C52", "title": "Type-check caching is transparent", "statement": "The cached isinstance answers the same as Python's isinstance for every history of queries and every eviction.", "quantifier": "all histories", "why_tests_cant": "Histories and evictions.", "anchors": ["gemd/util/impl.py: cached_isinstance"]}
{"id": "C53", "title": "Scaling factors in unit expressions are found exactly", "statement": "An expression is cut into blocks at multiplication, division and parentheses outside exponents and between adjacent names; no name, number or other operator is lost, duplicated or reordered, and an exponent stays with its base. After the first block, a block's scaling factor is its only number, standing before the unit and not raised to a power; any other placement of a number is refused with ValueError, an unknown operator with UndefinedUnitError.", "quantifier": "all token sequences", "why_tests_cant": "Arbitrary nesting of parentheses and exponents; tests cover a dozen strings.", "anchors": ["gemd/units/impl.py: _scaling_find_blocks", "gemd/units/impl.py: _scaling_identify_factors"]}
{"id": "C54", "title": "Complete material history covers the graph", "statement": "complete_material_history(mat) returns one record per entity reachable from mat's history with links in place of pointers, each at most once.", "quantifier": "all graphs", "why_tests_cant": "All graphs.", "anchors": ["gemd/entity/util.py: complete_material_history"]}
{"id": "C55", "title": "String and list field validation", "statement": "validate_str accepts exactly strings and returns them unchanged; validate_list accepts None, one element or an iterable of elements, and whenever it succeeds the result is a validated list of exactly the supplied elements (strings count as one element).", "quantifier": "all inputs", "why_tests_cant": "All input shapes.", "anchors": ["gemd/entity/setters.py: validate_str, validate_list"]}
{"id": "C56", "title": "add_attribute puts the attribute in its one place", "statement": "add_attribute(target, template, value) returns the attribute that make_attribute makes and appends exactly it to the one list of the target for attributes of its kind (for a MaterialSpec: a property, without conditions, to its properties; a condition to the conditions of its last property), changing nothing else; in every other case, including a target that has no such list, it raises and changes nothing.", "quantifier": "all targets, attributes and object graphs, and all sequences of such calls", "why_tests_cant": "All combinations of targets, attribute kinds and prior contents.", "anchors": ["gemd/builders/impl.py: add_attribute"]}
{"id": "C57", "title": "Raw dumps and loads copy the tree", "statement": "raw_loads(raw_dumps(x)) is a copy of x: the entities nested in x are replaced by new ones of the same class, with the same ids and the same attribute values (copies in place of entities), links stay links, and nothing that existed changes; raw_dumps fails exactly if some entity is nested in itself, which cannot happen while entities occur only in attributes meant to hold them.", "quantifier": "all object graphs and all nestings", "why_tests_cant": "Unbounded object graphs; the recursion through nested entities has to terminate and to preserve every attribute of every class.", "anchors": ["gemd/json/gemd_json.py: raw_dumps, raw_loads, _load_and_index", "gemd/json/gemd_encoder.py: default", "gemd/entity/dict_serializable.py: as_dict, from_dict"]}
{"id": "C58", "title": "A copy equals the original", "statement": "copy(x) = loads(dumps(x)) returns normally and the result is == to x, and x to the result; every entity of the copy is a new object that is == to the entity it was read for, in both directions.", "quantifier": "all object graphs and nestings", "why_tests_cant": "Unbounded cyclic object graphs; == itself recurses through all of original and copy with a cache of comparisons in progress.", "anchors": ["gemd/json/gemd_json.py: copy, dumps, loads", "gemd/entity/base_entity.py: __eq__, _cached_equals, _dict_for_compare"]}
{"id": "C59", "title": "A thin version holds links instead of entities", "statement": "thin_dumps(x) gives an id to every reachable entity without one and changes nothing else; raw_loads of its result changes nothing that exists and returns x with links in place of the entities it points to: an entity is read as exactly one new entity of the same class, ids and attributes, each entity it pointed to being replaced by a link to one of its ids; other values are read with links for entities everywhere and create no entity.", "quantifier": "all object graphs and nestings, all memories into which it is read", "why_tests_cant": "Unbounded object graphs and nesting of containers; all combinations of ids.", "anchors": ["gemd/json/gemd_json.py: thin_dumps, raw_loads", "gemd/util/impl.py: set_uuids, substitute_links"]}
{"id": "C60", "title": "Links are resolved in place", "statement": "substitute_objects(v, index, inplace=True) returns v with the indexed entities in place of the links the index knows. In every entity in reach of the result the same happens to every attribute, other entities keep theirs, no entity is made or loses its class or ids, two-way links stay intact, and a second call changes nothing any more.", "quantifier": "all object graphs and nestings, all indices", "why_tests_cant": "Unbounded object graphs; the function mutates what it walks through, through setters with effects on other entities.", "anchors": ["gemd/util/impl.py: _substitute_inplace, _setter_by_attribute, substitute_objects", "gemd/entity/object/ingredient_run.py: process, spec", "gemd/entity/object/material_run.py: process", "gemd/entity/object/measurement_run.py: material"]}
{"id": "C61", "title": "Entities are replaced by links in place", "statement": "substitute_links(x, inplace=True) of an entity x returns x itself; each other entity in its attributes is replaced by a link that it is equal to, the rest of x, including a name and labels that were read from its spec, stays, all other entities are seen as before, and two-way links stay intact. Of another value it returns the value with links in place of the entities, and no entity changes.", "quantifier": "all object graphs and nestings, all scopes", "why_tests_cant": "Unbounded object graphs and nesting; the setters called have effects on other entities, and depend on == between entities.", "anchors": ["gemd/util/impl.py: _substitute_inplace, _setter_by_attribute, substitute_links", "gemd/entity/object/ingredient_run.py: process, spec", "gemd/entity/base_entity.py: __eq__, to_link"]}
{"id": "C62", "title": "Links put in place can be resolved in place again", "statement": "substitute_links(x, inplace=True) followed by substitute_objects(x, index, inplace=True), with an index in which the links put into x mean the entities that were there, returns x itself both times and leaves every entity as substitute_objects alone would have left it; if the index knows no other link that one gets to, every entity is seen exactly as it was before, and two-way links are intact.", "quantifier": "all object graphs and nestings, all scopes and indices", "why_tests_cant": "Unbounded object graphs; both functions mutate entities through setters with effects on other entities, which must cancel.", "anchors": ["gemd/util/impl.py: _substitute_inplace, _setter_by_attribute, substitute_links, substitute_objects, make_index", "gemd/entity/object/ingredient_run.py: process, spec"]}
{"id": "C63", "title": "Operations on one bounds never change another", "statement": "Whatever calls are made on CategoricalBounds and CompositionBounds objects, and whichever of them were given the same set, no constructor, setter, union or update changes a set object that already exists, or the categories of any bounds other than the one whose setter or update was called; update adds exactly the categories of its arguments or raises and changes nothing; after an update, and after construction from a list, the bounds shares its set with nobody; and the categories are strings.", "quantifier": "all histories of calls and of changes the program makes to its own sets", "why_tests_cant": "Aliasing: the claim is about every pair of objects in every history, while a test looks at a few objects after a few calls.", "anchors": ["gemd/entity/bounds/categorical_bounds.py: categories, union, update", "gemd/entity/bounds/composition_bounds.py: components, union, update"]}
{"id": "C64", "title": "Powers of ten are rewritten without changing the value", "statement": "Before a unit expression is parsed, x * 10 ** y and 10 ** y (also written with ^, blanks and signs) are replaced by xey and 1ey; the new text is an expression with the same value, whatever the unit names in it mean, and a text in which no power occurs is left as it is.", "quantifier": "all unit expressions: products, quotients, sums, signs, powers, parentheses, numbers and names, with any blanks", "why_tests_cant": "A regular expression works on characters, not on the structure of the expression; whether a match respects precedence depends on unboundedly many contexts. The suite tries four texts.", "anchors": ["gemd/units/impl.py: _scientific_notation_preprocessor"]}
{"id": "C65", "title": "Scaling factors are replaced where they stand and keep their value", "statement": "When a unit expression is parsed, every scaling factor after the leading term, with its unit, is replaced by the name of a new unit; the new unit is worth exactly what the replaced text is worth, whatever was parsed before with the same registry; no other part of the expression is changed; and units defined before keep their values.", "quantifier": "all unit expressions with any number of scaling factors, all histories of the registry", "why_tests_cant": "The replacement searches the whole text once per factor, also in text produced by earlier replacements, and the registry is shared by all calls; the claim is about every combination of factors, names and earlier calls. The suite parses a few expressions with one or two factors.", "anchors": ["gemd/units/impl.py: _scaling_store_and_mangle", "gemd/units/impl.py: _scaling_identify_factors", "gemd/units/impl.py: _scaling_preprocessor"]}
{"id": "C66", "title": "repr returns and shows soft links by class and name only", "statement": "repr of a value returns exactly if no entity nested in it through its attributes is nested in itself, whatever cycles there are through back references (process and output material, process and ingredients, material and measurements); so it returns for everything made by constructors in which entities occur only in attributes meant for them. Each attribute of an entity is shown under its name as repr shows it by itself, and each back reference as class and name. Hence the text depends on the attributes of the nested entities and on nothing but the class and name of those behind back references.", "quantifier": "all object graphs of any size and depth, all values", "why_tests_cant": "Object graphs are full of cycles (a process knows its output material, which knows its process); that the recursion always ends, and on which objects the text depends, is a claim about every graph. The suite looks for one word in the text of five objects.", "anchors": ["gemd/entity/dict_serializable.py: DictSerializable.__repr__", "gemd/entity/dict_serializable.py: DictSerializable._name_repr", "gemd/entity/dict_serializable.py: DictSerializable.as_dict"]}
{"id": "C67", "title": "Objects stay sound under any history of changes", "statement": "Take any sequence of successful constructor calls, assignments to attributes of existing entities (other than the bounds of an attribute template), replacements of the members of a list attribute, assignments of uids and calls of add_uid. Afterwards every attribute of every entity holds a value its setter accepts and would store unchanged; every back reference names existing entities of the right class; each assignment changed only that attribute and back references; repr returns. If moreover no process was ever given two outputs and nothing was moved away from where something equal to it is, then both directions of all two-way links agree, an assignment raises only if the setter refuses the value, and what is serialised is read back as an isomorphic graph that is equal (==) to the original.", "quantifier": "all histories of any length, all classes of entities, all values", "why_tests_cant": "Users build data models by assigning attributes one after the other; that no order of such steps leaves an object that cannot be written, read or printed is a claim about all histories. The suite has a few short histories.", "anchors": ["gemd/entity/object/*.py: property setters", "gemd/entity/template/*.py: property setters", "gemd/entity/base_entity.py: BaseEntity.uids, add_uid", "gemd/json/gemd_json.py: GEMDJson.dumps, loads", "gemd/entity/dict_serializable.py: DictSerializable.__repr__"]}
{"id": "C68", "title": "Constructors and setters accept exactly the declared types and store the declared value", "statement": "For every class and every attribute: a constructor call or an assignment succeeds exactly if each value is of the declared type (with the stated conversions: whole floats for integers, numbers for floats, single values, tuples, dictionaries and None for lists, text for members of enumerations, sets without repetitions, normalised units), required arguments are given, lower bounds do not exceed upper bounds, and no two scopes of uids differ in case only; what is then read from the attribute is the declared conversion of what was given, and the object has exactly the declared attributes. For other values the declared exception is raised. Hence after any history of constructor calls and changes every attribute of every entity, and of every object nested in it, holds a value of its declared type.", "quantifier": "all 22 value classes and 14 entity classes, all attributes, all values, all object memories, all histories", "why_tests_cant": "Each attribute has its own setter, and the values it may be given are unbounded; the suite tries a few good and bad values for some of them. That nothing else is accepted, and that no history leaves a value of another type, is a claim about all values and histories.", "anchors": ["gemd/entity/setters.py: validate_list, validate_str", "gemd/entity/value/*.py: setters", "gemd/entity/bounds/*.py: setters", "gemd/entity/attribute/*.py: setters", "gemd/entity/object/*.py: __init__ and setters", "gemd/entity/template/*.py: __init__ and setters", "gemd/enumeration/base_enumeration.py: BaseEnumeration.from_str"]}
{"id": "C69", "title": "The validation level decides what can be loaded, never what is loaded", "statement": "Loading a document at validation level WARNING or FATAL either gives exactly the result and the object memory that loading at IGNORE gives, or raises; what loads at a stricter level loads at every laxer one. If the membership tests themselves do not raise, the exception is a ValueError, at FATAL only, or an AttributeError. A graph written by dumps can be read at FATAL exactly if every attribute in reach with a template and a value is within the bounds of that template, every attribute of a process, measurement or material spec suits the first entry of the object template that is about it (same template, or same name if it has none), every fraction is between 0 and 1 and no ingredient has an absolute quantity; then the copy is the one of C43. At WARNING every graph whose object templates list no links is read back.", "quantifier": "all documents, all object memories, all graphs in scope of C43, all three levels, all membership tests that do not depend on key order or on int against float", "why_tests_cant": "The level is a context variable consulted in many setters, in an order fixed by the document; the suite tries a few objects at each level. That the level never changes a result, and which graphs are readable at FATAL, quantifies over all documents and all graphs.", "anchors": ["gemd/entity/attribute/base_attribute.py: BaseAttribute._check", "gemd/entity/object/has_template_check_generator.py: HasTemplateCheckGenerator._generate_template_check", "gemd/entity/object/has_quantities.py: HasQuantities", "gemd/entity/template/has_condition_templates.py: HasConditionTemplates.validate_condition", "gemd/entity/bounds_validation.py: validation_level", "gemd/json/gemd_json.py: GEMDJson.loads"]}
{"id": "C70", "title": "Cleaning and marking up a formula changes its amounts of one and its indices, nothing else", "statement": "formula_clean removes nothing but characters 1, and cleaning twice is cleaning once. In a formula written as symbols and amounts it leaves out exactly the amounts that are 1; formula_latex writes every other amount as an index, whether or not the formula was cleaned before, and taking the markup away again gives the cleaned formula. The elements of the formula stay the same if no lower case letter follows a 1.", "quantifier": "all texts; all sequences of symbols and amounts; all sets of digits that are neither letters nor line ends", "why_tests_cant": "Two regular expressions with lookarounds are applied to arbitrary text; the suite runs them on the formulas of one file. That no formula loses anything but ones is a claim about all texts.", "anchors": ["gemd/demo/strehlow_and_cook.py: formula_clean", "gemd/demo/strehlow_and_cook.py: formula_latex"]}
{"id": "C71", "title": "The minimal table has one row of each shape, the first", "statement": "minimal_subset returns rows of the table in their order, no two with the same fingerprint, and for every row of the table one with its fingerprint, namely the first; applied again it changes nothing. Two rows have the same fingerprint exactly if the types of their cells have the same names in the same order. The reduced list the script writes consists of the imported rows that belong to the rows of the minimal table, in order.", "quantifier": "all tables, all rows, all cells whose type's name has no '>'", "why_tests_cant": "The suite applies the function to one table. Completeness, minimality and order are claims about all tables, and fingerprints are joined texts that could coincide by accident.", "anchors": ["gemd/demo/strehlow_and_cook.py: minimal_subset", "gemd/demo/strehlow_and_cook.py: _fingerprint"]}
{"id": "C72", "title": "The display table shows every cell in its column, with the uncertainty of the band gap behind it", "statement": "make_display_table succeeds exactly if all bounds and cells are of the known classes, some column is headed by the band gap and the first such has real bounds, and every row has there a real value or nothing. The result has one row for each row, one column more than the structured table, the same headers and shown cells in the same order, and directly behind the band gap a column with its uncertainty; a rectangular table gives a rectangular table. An uncertainty reported for a property is the standard deviation of its value.", "quantifier": "all structured tables; all values, uncertainties and units", "why_tests_cant": "Positions shift behind the inserted column, for every width and every place of the band gap; the suite shows one table and looks at one number. The uncertainties themselves are never compared.", "anchors": ["gemd/demo/strehlow_and_cook.py: make_display_table", "gemd/demo/strehlow_and_cook.py: make_strehlow_objects"]}
{"id": "C73", "title": "Renamed symbols of an enumeration keep working, and nothing else changes", "statement": "Decorating an enumeration with migrated_enum(old_value, new_value) succeeds exactly if new_value means a member (its value, or its value or a synonym up to case and surrounding blanks), and raises ValueError and changes nothing otherwise. After any number of such decorators, cls[old] and cls.old both give cls(new) of the last successful decorator for that symbol, each with one warning; every other symbol gives its member without a warning, or KeyError and AttributeError; members and cls(value) are as before. new_value may also be the new symbol.", "quantifier": "all enumeration classes, all sequences of decorators, all symbols and texts", "why_tests_cant": "Decorators nest: each derives a new metaclass from the last, and two independent mechanisms (item access and a property) have to agree for every order and for symbols renamed twice or shadowing members. The suite decorates one class.", "anchors": ["gemd/enumeration/base_enumeration.py: migrated_enum", "gemd/enumeration/base_enumeration.py: BaseEnumeration"]}
{"id": "C74", "title": "The version check passes exactly for an increased version and names the number that decreased", "statement": "The script reads from each version file the first version declared on a line of its own (__version__ = quoted text, blanks allowed), and raises ValueError if there is none. It ends with status 0 exactly if both files declare a version and the new one comes after the old one; it returns 4 exactly if they are the same version, 1, 2 or 3 exactly if the major, minor or patch number has decreased and no number before it has changed, and 5 if the version has decreased and these three are the same. The status tells these cases apart.", "quantifier": "all texts of version files; all pairs of versions with any number of release numbers", "why_tests_cant": "The component that is reported is found without looking at the order, and the order compares keys from which zeros at the end are removed; that both agree is a claim about all pairs of versions. The regular expression may match across lines, at any place of any text. The script has no tests.", "anchors": ["scripts/validate_version_bump.py: main", "scripts/validate_version_bump.py: extract_version", "setup.py: version_re"]}
{"id": "C75", "title": "The text that json writes is read as the same tree, never as anything else", "statement": "json.dumps of what raw_dumps and dumps hand to it - with any whitespace as indentation or around separators, with or without ensure_ascii, with whitespace around the text - is read by json.loads as that tree, the hook being called on exactly its dictionaries in their order; so raw_loads, loads, build and the round trip of C43 give with the text what they give with the tree. Different trees have different texts. Reading ends for every text. The text of a dictionary, list or string that was cut off anywhere is not read, nor is a text followed by anything but whitespace. Unless ensure_ascii=False is given the text is ASCII, whatever the strings are. Exactly the texts of the JSON grammar are accepted, each as the one thing it says (of a key given twice the last value, at its first place).", "quantifier": "all trees (any depth, any strings, integers, floats that are read as they are written); all styles with whitespace; all texts; all hooks", "why_tests_cant": "Strings range over all of Unicode, with control characters, quotes, backslashes and characters outside the basic plane, which become two escapes; numbers end where the text after them says so. That no cut-off text is read concerns every proper prefix of every text.", "anchors": ["gemd/json/gemd_json.py: GEMDJson.dumps", "gemd/json/gemd_json.py: GEMDJson.loads", "gemd/json/gemd_json.py: GEMDJson.raw_dumps", "gemd/json/gemd_json.py: GEMDJson.raw_loads", "gemd/json/gemd_json.py: GEMDJson.dump", "gemd/json/gemd_json.py: GEMDJson.load", "gemd/entity/dict_serializable.py: DictSerializable.build"]}
{"id": "C76", "title": "The Strehlow & Cook demo builds one run per row, shares specs by formula, and tabulates the first attribute of each name", "statement": "make_strehlow_objects makes one material run per row of the data, in order; two runs share a spec exactly if their cleaned formulas agree, the spec being named by the marked-up formula and having the clean formula as its only property. make_strehlow_table of that has, whatever the data, the same nineteen columns, and one row per row of the data: the two forms of the formula, and in each term's column the first attribute belonging to it (only the first attribute of each name counts; a 'Phase' that is no phase belongs to 'Crystal system', a 'Transition' that is no transition to 'Bands') or None. The display table can be made of it. The data are accepted exactly if every formula is one of known elements and every counting attribute has a known name and, in a numeric column, a readable number. That no reported value is lost, or that no measurement has two attributes of one template, is false.", "quantifier": "all lists of rows, all formulas, names, values and nestings of conditions", "why_tests_cant": "the demo test checks counts of one shipped file; which attribute ends up in which column, and when data are dropped, depends on the order of attributes in each row", "anchors": ["gemd/demo/strehlow_and_cook.py:84-192", "gemd/demo/strehlow_and_cook.py:195-313", "gemd/demo/strehlow_and_cook.py:316-394"]}
{"id": "C77", "title": "Ingesting material runs: each dictionary becomes a run with one measurement per experiment, each value what its text says", "statement": "ingest_material_run makes of a dictionary one new material run and of a list a list of those of its members; the run has the sample id and tags given, and one measurement per experiment in order, each with the known properties, conditions and parameters it names and nothing else. A value is a number without a unit, or a text: 'm +- s ... u' a normal, 'm ... u' a nominal with the last word as its unit if it is one, a single word a number or category. Data are accepted exactly if tags are texts, experiments dictionaries, values so readable and the process a process. ingest_table adds a measurement per row in order; a row with another cell than a number stops it, those before staying attached. Everything there before is left as it was, but for the process getting its output. That a spec given becomes the spec of the run, that a process given to a list is used, or that a unit of several words is read, is false.", "quantifier": "all data (nested lists included), all heaps, all specs and processes, all interpretations of number and unit texts", "why_tests_cant": "the tests ingest one dictionary and check that it serializes, and one list without a process; the spec is never looked at", "anchors": ["gemd/demo/material_run_example.py:41-137", "gemd/demo/table_example.py:11-25"]}
{"id": "C78", "title": "The demo's cake: what its recipe, its runs, their ids and its measurements are, whatever is drawn", "statement": "For every recipe in which all goes into the cake, whatever the draws and the order of references, make_cake's walk ends and every run has its spec's tags, notes and id (with the key), bought materials their supplier's name before their own and purchases that name, processes the source, and each ingredient quantities within the stated range around those of the spec. _find_name finds the first material in depth-first order whose name contains the text. The recipe is such a recipe: bought are exactly the materials made of nothing, names and labels are allowed by the process templates, fractions add up to one, and no two specs, runs or measurements have the same id. That the sugar analysis is of the sugar, that the volume fractions of the runs add up to one, or that one scope serves for templates too, is false.", "quantifier": "all draws in range, all keys, all orders of references; all whole recipes for the runs; all names for the search", "why_tests_cant": "the tests make a cake of one seed and count its objects; which sugar is measured and what fractions add up to is never looked at", "anchors": ["gemd/demo/cake.py:34-66", "gemd/demo/cake.py:74-240", "gemd/demo/cake.py:243-768", "gemd/demo/cake.py:771-902"]}
{"id": "C79", "title": "The flexural test: stress, strain and modulus agree with each other and with the deflection", "statement": "For every deflection but 0, make_flexural_test_measurement gives a stress of 60 MPa, a strain in proportion to the deflection and the modulus that is their ratio, each with a standard deviation of 1 %, the deflection itself, the given id, and the given tags after three fixed ones. make_demo_measurements gives one for each draw, in order. That it does so for every draw is false: a deflection of 0, which random() may give, is a ZeroDivisionError.", "quantifier": "all deflections, ids, tags and sequences of draws", "why_tests_cant": "the tests take a few random deflections and check the number of measurements", "anchors": ["gemd/demo/measurement_example.py:13-75"]}
{"id": "C80", "title": "Every attribute and quantity of the demo's cake is within its bounds, unless validation is fatal", "statement": "Whatever is drawn in [0, 1), and at every validation level, no attribute of the specs, runs, measurements and measurement specs of the cake raises or logs a warning when it is constructed or when it is added to its object, against both its own template and what the object's template lists for it. The object templates accept what they are given. The oven setting is accepted exactly within 100 and 550 degrees F, and the measured oven temperature, found by its name, within 0 and 700. No quantity of the ingredient specs or runs raises or warns at IGNORE or WARNING. That the demo can be made at FATAL is false: every absolute quantity raises. That the formulas of salt and sugar are checked is false: they accept any value.", "quantifier": "all validation levels, all draws in [0, 1), all attributes, templates and ingredients of the demo", "why_tests_cant": "the tests make the cake with one seed at the default level; values near the ends of the draws and the other levels are never tried", "anchors": ["gemd/demo/cake.py:75-236", "gemd/demo/cake.py:281-766", "gemd/demo/cake.py:820-847", "gemd/demo/cake.py:904-1047", "gemd/entity/object/has_quantities.py:95-126", "gemd/entity/attribute/base_attribute.py:58-115"]}
