# Formal model of gemd-python in Lean 4

Subject: `/repo` (gemd-python, pinned commit), read as text only. Everything below `lean/Verif/` is Lean 4.33
with (rarely) single Mathlib modules. Properties are in `properties.jsonl`, their status in `MANIFEST.json`,
the record of deliberately wrong models in `seeded/LOG.jsonl`.

## Conventions

* Python functions are modelled branch by branch as Lean functions. Exceptions are values: `Except PyErr α`, where
  the state *after a failed call* matters the model returns the pair (new state, outcome), so that "nothing changed"
  is a theorem and not an artefact of the monad.
* A model definition cites the file and lines it models and says where it simplifies.
* Specifications (abstract maps, denotations of bounds as sets, reachability relations, ...) are separate definitions
  that do not use the model's helpers.
* `X_partial` marks a theorem that proves less than the English claim. `X_fails` / `..._counterexample` marks a proved
  negation: the claim, read literally, is false of the code, and a concrete witness is exhibited.
* Layout: `Verif/Model/*.lean` the model; `Verif/Lemmas/*.lean` (or the upper half of a file) helper lemmas;
  `Verif/Props/*.lean` the property theorems and the `example`s showing that their hypotheses can be met.

## Trusted base

* Lean's kernel; the axioms `propext`, `Classical.choice`, `Quot.sound` (the standard three; no others are used;
  the exact list per theorem is in AXIOMS.md, summarised in the section "Axioms" below).
* The reading of Python: that the Lean definitions say what the cited lines do. In particular CPython's `dict`, `list`,
  `set`, `sorted`, `str` methods, `functools.lru_cache`, `isinstance`, properties and `**kwargs` are modelled by hand.
* That `Model/JsonText.lean` says what the `json` module of CPython does (`json.encoder`, `json.decoder`, `json.scanner`; not part of /repo).
* Not modelled anywhere: how floats are written and read (a parameter of C75), `pint` (its parser and registry; a unit system is an abstract structure),
  IEEE arithmetic except where stated (C13 models `float(int)` exactly; elsewhere numbers are exact), log output,
  the text of `repr` below its tree, numpy/pandas, threads, garbage collection, hash collisions between distinct objects
  (except the equal-by-value collisions of Python numbers, strings, tuples and links, which are modelled).

## Properties: what is modelled and how it is proved

| id | modelled | method |
|----|----------|--------|
| C01 | `CaseInsensitiveDict`: both internal dictionaries as insertion-ordered association lists, parametrised by an arbitrary lower-casing function | refinement to an abstract map (lower key -> (key, value)) by an invariant over histories |
| C02 | same, state-after-failure explicit | case analysis; negation witness for a self-conflicting `update` batch; `_partial` for batches without internal conflict |
| C03 | `ValidList` with arbitrary type test and trigger | invariant over histories |
| C04 | same, plus argument kinds (sequence vs one-shot iterator) | equation with the plain list operation; negation for one-shot iterators |
| C05 | `RealBounds.contains`, `_convert_bounds` over an abstract unit system with strictly monotone conversions on an ordered field | soundness and completeness against the denotation as sets of (dimension, base magnitude) |
| C06 | `contains` of the other four kinds | iff with set inclusion |
| C07 | all `contains` | from C05, C06 |
| C08 | all `union` | least-upper-bound theorem by induction on the argument list |
| C09 | all `update` with explicit state after each assignment | equality with union; failure atomicity |
| C10 | constructor and setters of all bounds | invariant over histories with failing steps; negation for the categories/components setters, which store before they validate |
| C11 | `BaseBounds.contains` and the overrides | decision table |
| C12 | `_to_bounds` of all values | least bounds theorem per kind |
| C13 | integer setters with exact `float(int)` rounding (53-bit, ties to even) | theorem for |n| <= 2^53; witness 2^53+1 for the negation |
| C14 | abstract linear/offset unit system (scale and offset per unit, exact rationals) and `convert_units` | algebra; invariance of containment |
| C15 | `lru_cache` as bounded association list, registry state, `change_definitions_file` | invariant: every cached entry is the current answer |
| C16 | `_scaling_store_and_mangle`, `_unmangle_scaling` on character lists | round trip by induction, termination measure; agreement of the matchers with the expressions of the source (Model/MangleRegex.lean, Props/MangleRegex.lean) |
| C17 | `BaseEnumeration.__new__`, `from_str` | uniqueness from the construction-time check; negation where the check is too weak |
| C18 | `InChI.inchi` setter on character lists incl. `str.replace` of all occurrences | idempotence; negation for body preservation |
| C19 | `EmpiricalFormula` tokeniser | iff by induction over the string; agreement with `re.findall` (Props/MangleRegex.lean) |
| C20 | setters of `UniformInteger`, `DiscreteCategorical`, `UniformReal` | invariants; negation for `UniformReal` attributes |
| C21 | `validation_level` context manager and `set_validation_level`; small program language with blocks and raising | induction over programs; negation for blocks that raise |
| C22 | attribute value/template setters at each level | invariant over histories; negation for link templates |
| C23 | `generate_template_check`, `validate_condition` etc., object template and attribute-list setters | invariant over histories at FATAL |
| C24 | `HasQuantities` setters | decision theorems; negation: FATAL rejects every absolute quantity |
| C25 | `_homogenize_ranges` and the three setters | decision over all input shapes |
| C26-C28 | heap of objects with the setters and constructors of ingredient/process, material/process, measurement/material; Python `==` used by `list.remove` is a parameter | invariant over histories of operations; witnesses for the failing cases (stealing a process, `remove` of an equal ingredient, failing assignment after unlinking) and `_partial` invariants excluding them |
| C29 | reference setters | invariant |
| C30 | `IngredientRun.name/labels/spec/from_dict` | refinement |
| C31, C32 | uids, `to_link`, `from_entity`, three `__eq__`s, `__hash__` | case analysis over arbitrary uid maps |
| C33 | `_cached_equals` over an arbitrary finite heap, cache threaded | termination: number of uncached pairs decreases |
| C34 | same | soundness via "False is always justified"; negation of symmetry (duplicate tags) ; completeness on isomorphic graphs; exactly when lists, dictionaries and attribute objects are equal (Props/EqualValues.lean) |
| C35, C41, C42 | `_substitute` with its dictionary of results, `substitute_links`, `substitute_objects` (copying), `make_index` (Model/Substitute.lean) on value trees over an entity memory | structural induction with the invariant that every stored result is a right one (`alike`, an independent relation) |
| C36, C37 | work-list traversals over a generic object graph | loop invariant and termination measure |
| C38 | `set_uuids`; with the state left behind by an exception in Model/TraverseState.lean | via C36; the order of the calls is that of a trace that does not depend on the callback (Props/VisitState.lean) |
| C39, C40 | `flatten`, `writable_sort_order`, stable sort | via C37, C41 and a rank argument |
| C43, C44, C45 | `dumps`, `loads`, `_load_and_index`, constructors | simulation between the original heap and the rebuilt heap, induction over the context list |
| C46 | `as_dict`, `from_dict`, `build`, `__eq__` on value trees | structural induction |
| C47 | metaclass registry | invariant over sequences of class statements |
| C48 | `make_instance` | depth-first construction with memo table |
| C49 | `all_dependencies` and the `_local_dependencies` of every class | per-class equality with the field-reference specification |
| C57 | `raw_dumps`, `raw_loads` on object graphs (Model/Json.lean) | simulation: reading keeps the invariant that everything new is a copy (Props/Copies.lean, ReadCopy.lean); termination by counting what is inside an entity |
| C50, C51, C56 | builders (Model/MakeValue.lean, Model/Builders.lean) | functions on the entity memory that also return the memory after a raise; success characterized exactly, counterexamples for raises that leave links behind |
| C52 | `lru_cache` of `issubclass` | same generic cache theorem as C15 |
| C53 | `_scaling_find_blocks` and `_scaling_identify_factors` on token lists (pint's tokenizer trusted) | loop invariants; exact characterisation of the blocks by a right fold over items (tokens, or power operator with its exponent); counterexample for a sign before a group |
| C54 | `complete_material_history` (Model/History.lean) | via C36 and C43; invariant that earlier records stay right while later calls add ids; counterexample for scopes that differ in case |
| C58 | `copy` as `dumps` then `loads`, then `==` on the memory with original and copy (Props/CopyEqual.lean) | the copy is isomorphic to the original (C43), `==` answers (C33) and accepts isomorphic graphs (C34); congruence of the comparison on sets closed under references; counterexamples for links and tuples |
| C59 | `thin_dumps`, `raw_loads` (Props/Thin.lean) | composition of C38, C41 and C57: a copy of a copy is a copy (`alike_comp`); one record makes one entity |
| C60 | `_substitute_inplace`, `_setter_by_attribute` and the setters of entities on the memory (Model/Inplace.lean, Props/Inplace.lean, InplaceObjects.lean); the memory at an exception (Model/InplaceState.lean, Props/InplaceNested.lean) | total correctness: invariant that every entity begun with is resolved up to the attribute reached, induction on how deep links lead; two-way links by counting who points where; that no link leads back, from the order of classes (Props/InplaceTidy.lean); counterexamples for a shared process and for tuples |
| C61 | the same with `substitute_links`; `==` is any relation, or that of C33 (Props/InplaceConv.lean, InplaceLinks.lean, InplaceLinksEx.lean, InplaceNeeds.lean); the memory at an exception (Model/InplaceState.lean, Props/InplaceState.lean) | total correctness: invariant of the loop over attributes (attributes done have links, the rest, others' attributes and two-way links intact); counterexample for equal ingredients |
| C62 | C61 and C60 one after the other (Props/InplaceInverse.lean) | the memory after the first has, with links resolved, the attributes of the memory before, so the hypotheses of C60 carry over |
| C63 | categorical and composition bounds as objects that refer to set objects (Model/SetAlias.lean) | what each call does to sets and references; invariants over histories; counterexample: a set given to bounds is shared |
| C64 | a backtracking matcher for Python's regular expressions (Model/Regex.lean), the expression of `_scientific_notation_preprocessor` and `re.sub` (Model/SciNotation.lean) | the expression matches in at most one way (Props/SciRegex.lean), so `re.sub` is a walk over the text (SciScan, SciNumeral), a rewriting of tokens (SciTokens, SciRewrite), a rewriting of expression trees (SciExpr) that keeps their value in any structure with the laws of `Sem` (Props/SciNotation.lean); counterexamples |
| C65 | `_scaling_store_and_mangle` and `_scaling_preprocessor` (Model/Scaling.lean): definitions in the registry as a dictionary that outlives the call, `re.sub` with its lookarounds as a scan; tokens with columns; pint's tokenizer, canonical names and values are parameters | pieces of an expression; where a term can match (spans of digits, blanks, letters); induction over pieces for one replacement and over the terms for all; blocks of pieces through C53; injectivity of identifiers for the invariant of the registry; agreement of the scan with `re.sub` (Props/MangleRegex.lean); counterexamples |
| C66 | `__repr__`, `_name_repr` on object graphs (Model/Repr.lean), a text as the tree it is printed from | termination by counting what is inside an entity (as C57); fuel monotonicity for the equation; congruence over nested entities; back references of constructed entities from C43 (Props/BackLinks.lean) |
| C67 | assignments `x.name = v`, `x.uids = v`, `add_uid` on the memory (Model/Assign.lean with the setters of Model/Inplace.lean) | induction over histories: typing of all attributes, two-way links, class of back references are kept by each kind of step (Props/Edited.lean); C43, C58 and C66 then apply; a history carried out and three counterexamples in Props/EditedEx.lean; histories with assignments that raise in Props/Refused.lean |
| C68 | the setters and constructors of Model/Schema.lean and Model/Assign.lean | a second, relational account of declared types and stored values (Props/Declared.lean, Props/DeclaredHist.lean) is shown equivalent kind by kind; tables of arguments compared with the declared ones; histories by C67, objects inside values by C46 |
| C69 | Model/Checked.lean: the checks of attributes, object templates and quantities at the three levels, run after each object is built while loading | a checked decoder succeeds exactly if the plain one does and each call passes (Props/Checked.lean); for written graphs the calls are matched with the objects in reach by the correspondence of C43 (CheckedTrip, CheckedMirror, CheckedRead, CheckedDump); the checks equal a relational specification (CheckedSpec). Assumed of the checks (`Fair`): membership does not see key order or int against float; equality of templates compares ids, links by id. Warnings themselves are not modelled; a check runs after the constructor instead of inside it, which differs only in which of two exceptions is raised |
| C70 | `formula_clean`, `formula_latex` as walks over the text (Model/Markup.lean) | induction over the text with the character before; formulas as lists of symbols and amounts; counterexample |
| C71 | `minimal_subset`, `_fingerprint`, the loop of the script (Model/Tables.lean) | induction over rows with the fingerprints seen; texts that end in their only `>` can be told apart when joined |
| C72 | `make_display_table`, `real_mapper` (Model/Tables.lean) | positions under insertion; cells against a relational account of what they show; counterexample |
| C73 | `migrated_enum` (Model/Migrate.lean): metaclasses as a stack of (old, new) | induction over the decorators; counterexample for new symbols |
| C74 | `extract_version`, `main` (Model/Version.lean) | all ways to match the expression, search by induction over the text; sort keys against first differing number; counterexample for status 1 |
| C75 | `Model/JsonText.lean`: `json.dumps` and `json.loads` character by character | induction over the tree for reading what was written; induction over the rounds for totality and for stability under appending; grammar as mutual relations, soundness by induction over the rounds, completeness over the derivation |
| C76 | make_templates, make_strehlow_objects, make_strehlow_table | invariant of the dict of compounds, list of specs and list of runs; induction over the attributes with the set of names seen; the columns computed |
| C77 | _parse_value, ingest_material_run, ingest_table over the heap of Model/Heap.lean | separate relation of what a text, a dictionary and a list mean; induction over the data with what is kept of the heap; induction over the rows |
| C78 | the recipe as data built by _make_material and _make_ingredient, _randomize_object over recursive_foreach, _find_name, measurements, ids, scopes, template ids and allowed names | order of the visits from an invariant of the loop (each run once, a material before its process), then what one visit does; search as the first in the depth-first list; facts of the recipe by kernel evaluation |
| C79 | make_flexural_test_measurement and make_demo_measurements over rationals | field arithmetic; induction over the draws |
| C80 | attribute and object templates, attributes and quantities of cake.py as data, put through the setters of Model/Attribute.lean and Model/Template.lean | a list of bounds per attribute, evaluated in the kernel; linear arithmetic over the draws |
| C55 | `validate_str`, `validate_list` | case analysis |

## Which code is modelled where

| module (lean/Verif/Model) | code (gemd/) |
|---|---|
| CIDict, ValidList, Strings | entity/case_insensitive_dict.py, entity/valid_list.py, entity/setters.py, enumeration/base_enumeration.py, entity/value/inchi_value.py, entity/value/empirical_formula.py |
| Bounds, Value, Dist, Level, Attribute, Template | entity/bounds/*, entity/value/*, entity/bounds_validation.py, entity/attribute/*, entity/template/*, entity/object/has_quantities.py, has_template_check_generator.py |
| Cache, Mangle, MangleRegex, Scaling, Regex, SciNotation | units/impl.py (caching, registry replacement, scaling factors, scientific notation); util/impl.py cached_isinstance |
| Heap | the setters that keep back-links: entity/object/ingredient_*.py, material_*.py, measurement_run.py, process_*.py |
| Link | entity/link_by_uid.py, entity/base_entity.py (uids, to_link, `__eq__`, `__hash__`) |
| Equal, Repr | entity/dict_serializable.py, entity/base_entity.py (`_cached_equals`) |
| Schema, Registry, Dependencies | every entity and value class as a table of constructor arguments; metaclass registry; `all_dependencies` |
| Traverse, Substitute, Inplace, InplaceState | util/impl.py |
| Assign, AssignState | assignments to attributes of entities, with the memory after one that raises; entity/base_entity.py (uids, add_uid) |
| JsonText | the text that json/gemd_json.py has written and read by the `json` module of CPython |
| DumpsState | json/gemd_json.py dumps, thin_dumps: the memory at an exception |
| FlattenState | util/impl.py flatten: the memory at an exception |
| LoadsState | json/gemd_json.py loads: the memory at an exception (as it was before the constructor call that raises) |
| TraverseState | util/impl.py recursive_foreach, set_uuids: the memory at an exception |
| Json, History | json/gemd_json.py, json/gemd_encoder.py, entity/util.py complete_material_history |
| Markup, Tables | demo/strehlow_and_cook.py: formulas, minimal subset, display table, real_mapper |
| Strehlow, Ingest | demo/strehlow_and_cook.py (objects and table), demo/material_run_example.py, demo/table_example.py |
| Cake, CakeAttributes | demo/cake.py (recipe, runs, ids, measurements; templates, attributes, quantities), demo/measurement_example.py |
| Migrate, Version | enumeration/base_enumeration.py migrated_enum; scripts/validate_version_bump.py, the expression of setup.py |
| Instance, MakeValue, Builders | entity/util.py make_instance, builders/impl.py |

Not modelled: `pint`, log messages, `str` and the text of `repr` below its tree, deprecated aliases; `load`/`dump` on files (they call `loads`/`dumps`).

## Axioms

AXIOMS.md lists for each theorem named in MANIFEST.json the axioms it depends on, as printed by Lean. There are four cases: none; `propext`;
`propext, Quot.sound`; `propext, Classical.choice, Quot.sound`. No other axiom occurs, in particular neither `sorryAx` nor `Lean.ofReduceBool`.

## Where the code does not do what the property says

Each of these is a theorem or an `example` about the model (suffix `_counterexample` or `_fails`), found while proving the property.

* C01/C02: a bulk `update` that conflicts in its middle keeps what it has done; `setdefault` bypasses the check of case.
* C03/C04/C25/C55: one-shot iterators are consumed by the check and then nothing is stored.
* C05: the inclusion test is wrong for a unit whose scale is negative.
* C09: `MolecularStructureBounds.update` accepts anything.
* C10: the setters of `categories` and `components` store before they validate.
* C13: integers that `float` does not represent are refused.
* C15: `1` and `1.0` share a cache key; a conversion between clearing the cache and installing the registry leaves a stale entry.
* C16: five kinds of scaling factor are not restored. C53: a sign before a group.
* C17: a synonym shared with an earlier member, and values with surrounding blanks, are not found.
* C18: repeated markers in the body of an InChI are rewritten.
* C20: attributes of `UniformReal` are unchecked after construction.
* C21: a block left by an exception keeps its level.
* C22/C23: templates given as links are not checked; a template assigned after the attributes does not check them.
* C24: at FATAL every absolute quantity is refused. The check in `_homogenize_ranges` (C25) does not depend on the level.
* C26-C28: a failing assignment or construction leaves one side linked; `list.remove` removes an equal ingredient; a process can be taken over by another material.
* C32: `==` is not transitive through links; the hash of a link is sensitive to case, comparison with entities is not.
* C33: objects containing themselves in nested lists do not compare. C34: `==` is not symmetric (duplicate tags).
* C35: the copying `substitute_objects` puts copies, not the entities of the index; an entity that links to itself keeps the inner link; lookups are case-sensitive,
  in `loads` they are not. `_substitute` remembers results by `==`, so `1`, `True` and `1.0`, or a tuple and the equal link, are taken for each other.
* C36/C37: a tuple with a list in it raises TypeError; a list that contains itself is never finished.
* C39: if `flatten` with a scope raises, the ids given by then stay.
* C39: deduplication is by exact ids: entities sharing an id are merged, ids that differ in case are not.
* C43: a link that means an entity in reach becomes that entity; two materials sharing a process; tuples come back as lists; a dictionary key `type`.
* C44: if writing raises, the ids given by then stay.
* C45: a field `self` in a record is a TypeError; two records with one id make two objects.
* C49: a link stored in `notes` is no dependency.
* C50: `add_edge` and `add_measurement` leave links behind when they raise late. C51: at WARNING a value of another kind is kept.
* C54: ids that differ only in the case of their scope make a history with one record twice and another missing.
* C57: a shared entity is copied twice.
* C59: tuples come back as lists.
* C60: of two materials whose link means one process only the second is its output material; a tuple equal to a link is put in its place.
* C64: `* 10 ** k` after a divisor or an exponent is drawn into it (`m/3*10^3` becomes `m/3e3`, `m^2*10^3` becomes `m^2e3`); `1.10**2` becomes `1.1e2`, `10**2**3` becomes `1e2**3`,
  `1e-3*10**2` becomes `1e-3e2`.
* C65: the text of a factor is replaced wherever it occurs, also in exponents (`g/2/m**2` becomes `g/_2/m**_2`), names (`cmH2O` after a factor 2 becomes `cmH_2O`), longer terms (`2 g` in `2 gal`), numbers
  (`5 g` in `2e5 g`), the leading term, and identifiers made before (`m/2/2` becomes `m/__2/__2`, where `__2` is not defined); `-5 g` and `.5 g` share an identifier, whose value is that of whichever was parsed first.
* C63: a set given to `CategoricalBounds` or `CompositionBounds` is kept, not copied; what is added to it later is not checked.
* C60: if under the id of a link there is an entity of the wrong class then `substitute_objects(x, index, inplace=True)` raises, with the attributes before it already replaced.
* C61: if an entity in the attributes of `x` has no id then `substitute_links(x, inplace=True)` raises, with the attributes before it already replaced.
* C61: if links replace the entities in one of two equal ingredients without ids, the process forgets the first of them, even if it was the second that changed.
* C67: a refused assignment to the process of an ingredient makes the process forget the ingredient, which keeps the process; after that its process cannot be changed any more (ValueError).
* C67: the bounds of a template can be changed so that an object template that uses it can no longer be read back from what is written; moving one of two equal ingredients makes the
  process forget the other, and moving that one later may raise ValueError; a process that is given a second output forgets the first, which still points to it.
* C58: a copy is not equal to its original if a link means an entity in reach, or if there are tuples.
* C69: a graph with an absolute quantity cannot be read at FATAL; at WARNING an object template that lists a link and an attribute without template raise AttributeError.
* C70: a 1 between a symbol and a lower case letter joins them: `C1o1` becomes `Co`.
* C72: the standard deviation of a band gap in eV is its mean.
* C73: `migrated_enum` does not take the new symbol for the new value, as its documentation says. C74: a missing version ends the version check with status 1, as a decreased major version does.
* C76: a second attribute of a name is dropped even if it belongs to another template; attributes of two names can belong to one.
* C77: the spec given is not made the run's spec; a process given with a list is ignored; of a unit written with blanks the last word is read; a table that cannot be read to its
  end leaves the measurements of the rows before.
* C78: the sugar analysis of the cake is of the powdered sugar; the volume fractions of the runs add up to more than 1; with one scope for all, a template and a spec have the same id.
  C79: a deflection of 0 is a ZeroDivisionError.
* C80: at FATAL the cake cannot be made, since every absolute quantity raises; the formulas of salt and sugar are not checked against anything.
