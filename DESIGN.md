# Formal model of vara-feature (Lean 4)

## Layout

* `lean/Verif/<Area>/Model.lean` and its neighbours: model definitions, each citing file and lines in `/repo`.
* `…Spec.lean`, `FM/Describe.lean`, `Xml/Doc.lean`: small specifications (namespace `Verif.Spec`) used in the
  statements. They do not call the functions of the model they are used to judge.
* Other files of an area: helper lemmas.
* `lean/Verif/Props/*.lean`: the property theorems, named `Cxx_…`, with examples that meet their hypotheses.
  `MANIFEST.json` lists them per property.
* `seeded/LOG.jsonl`: wrong programs tried against the theorems.

Areas: `Base` (strings, numbers as text), `Constraint` (syntax, lexer, parser, builder, printing), `Step`
(step functions), `Config` (options, configurations), `Source` (locations), `FM` (feature models, transactions,
builder, clone, iteration, bulk removal), `Solver` (Z3 terms, solver, enumeration), `Sxfm` and `Xml` (documents), `Sampling` (sample sets),
`Merge` (merging models), `Graph` (drawing models), `Tools` (command-line tools), `Utils` (results).

## Trusted base

* Lean 4.33.0's kernel. The axioms used are `propext`, `Classical.choice` and `Quot.sound`, no others: no axiom
  is added, there is no `sorry`, `native_decide` or `bv_decide`. `vcheck` reports the axioms of every theorem.
* The reading of `/repo` into the model. Nothing was compiled or run.
* Behaviour of libraries, stated where it is modelled:
  * LLVM `StringRef` (`getAsInteger`, `split`, `rsplit`, `take_while`, `lower`, non-overlapping `count`),
    `StringMap`, `SetVector`, `SmallSet`, `SmallPtrSet`, `json::Object`.
  * C++ standard containers and algorithms; `std::atoi` outside the range of `int` is undefined.
  * libxml2: reading text gives a tree of elements, `xmlNodeGetContent` concatenates the texts below an element,
    serialising and reading again gives the same tree. NUL bytes and invalid UTF-8 are out of scope. Validation
    decides the declarations of the DTD; it does not check the name of the outermost element.
  * Z3: terms with sorts and their meaning are modelled; checking is an oracle that is sound and complete for the
    asserted terms. Negative numerals print as `(- n)`.
    The model rejects `=` and `distinct` of a truth value and a number, where some versions of Z3 coerce the truth
    value; no theorem depends on this (the theorems hold for either).
  * JSON text: printing then parsing gives the same object (`JsonText.Faithful`, an explicit hypothesis).
* Characters are Lean's `Char`; texts are lists of them. A `std::string` is a sequence of bytes; the code looks only
  at ASCII characters, so bytes above 127 behave like any other non-ASCII character.

Undefined behaviour (null dereference, access to an empty container, erasing an absent element, use after free,
`assert` in a build with assertions) is a separate outcome of the model, never a default value.

## What is modelled

| code | model | simplifications |
|------|-------|-----------------|
| `Constraint.h`, `Constraint.cpp` | `Constraint/Syntax` (trees), `Constraint/HeapModel` (objects, for C08) | elsewhere a stored constraint is a tree plus, per feature leaf, the feature it points to |
| `ConstraintParser.h` | `Constraint/Lexer`, `Constraint/Parser`, `Constraint/Double` | reading of `1e5` through `double` is a parameter `sci` of every theorem; `sciDouble` is its value for texts of digits, signs, `e` and `.`, from the documented behaviour of `getAsDouble` and `formatv` (IEEE binary64, rounding to nearest even) |
| `ConstraintBuilder.h` | `Constraint/Builder` | none |
| `StepFunction.h`, `StepFunctionParser.h` | `Step/Model`, `Step/Ieee`, `Step/Text` | floating-point arithmetic is a parameter; `ieee` is its value for doubles with rounding to nearest, `std::pow` remains a parameter; the sign of zero is left out |
| `Utils/Result.h`, `Solver/Error.h`, `Feature/Error.h` | `Utils/Result` (C85) | the outcome of C++ overload resolution is written down, not derived; elsewhere a `Result` is its content |
| `Configuration.h/.cpp` | `Config/Model` | JSON text is a parameter |
| `FeatureSourceRange.h` | `Source/Model` | `filesystem::path` is the list of its elements |
| `Feature.h`, `FeatureTreeNode.h`, `Relationship.h`, `FeatureModel.h/.cpp`, `Feature.cpp`, `OrderedFeatureVector` | `FM/Model`, `FM/Traverse`, `FM/Iterate`, `FM/Compare` | a heap of nodes with identities; pointer sets iterate in an arbitrary order (`Env`); nodes are never freed while referenced |
| `FeatureModelTransaction.h/.cpp` | `FM/Transaction`, `FM/Copy`, `FM/Bulk`, `FM/AddConstraint`, `Merge/Model` | the two models to merge live on one heap |
| `FeatureModelBuilder.h/.cpp` | `FM/Build` | none |
| `Z3Solver.h/.cpp`, `ConfigurationFactory.h`, `Solver.h` | `Solver/*` | Z3 as above |
| `FeatureModelParser.cpp` (SXFM) | `Sxfm/*` | document already validated |
| `FeatureModelParser.cpp` (XML) | `Xml/*` | document already validated; verbosity and messages dropped |
| `SampleSetParser.cpp`, `SampleSetWriter.cpp` | `Sampling/*` | CSV and YAML libraries: see the table and the map they exchange |
| `ConfigurationGenerator.cpp`, loading helpers in `FeatureModel.cpp` | `Tools/Generator` | files as a map; the command line as the values of its options; libxml2, CSV and YAML as functions; writing to an opened file succeeds |
| `FeatureModelViewer.cpp` | `Tools/Viewer` | as above; names of temporary files and the programs found are parameters |
| `Feature.h` (`operator==`, `hash`, `updateLocation`) | `FM/Equality` | `std::hash` is any function |
| `FeatureModelBuilder` as an object, used after building | `FM/Life` | the addresses of objects do not matter; moved-from builders are not modelled |
| `pybind_FeatureModelBuilder.cpp` | `FM/Python` | conversions by pybind11 are trusted |
| programs that fill and commit modify transactions | `FM/Script` | features are named; the pointer `addFeature` takes is looked up when the transaction is filled |
| `pybind_FeatureModel.cpp` (editing and looking up), the one-call helpers of `FeatureModelTransaction.cpp` | `FM/Session` | `None` for a reference raises `TypeError` (trusted) |
| `addFeatures` in `FeatureModelTransaction.cpp` | `FM/AddMany` | parents are features of the model, not other new features |
| `FeatureModelWriter.cpp` | `Xml/Model` (writer part), `Xml/Calls` (as calls to the library, proved to write that tree) | the document as a tree, not as bytes; for each feature the order of constraint lists |
| `GraphWriter` in `FeatureModel.h`, `toHTML`, `toString` of features, `dump` | `Graph/Model` | a list of statements, each with its text; `DOT::EscapeString` as published by LLVM; names of nodes are the printed addresses |

Not modelled: log and error messages, `view` (starts a viewer), Python bindings except the builder and the editing of models, concurrency
(there is none), memory exhaustion.

## Method

* When the code violates a property, the property stays in `properties.jsonl` as stated, the negation is proved (with
  a witness, or for all states where that is possible), and the largest part found to hold is proved under a name
  with suffix `_partial`. The conditions of the partial theorems are each shown necessary where possible.
* Every theorem with hypotheses has an example or a theorem `…_not_vacuous` / `…_example` that meets them.

## Per property

| id | modelled | how proved |
|----|----------|-----------|
| C01 | constraint trees, `toString`, lexer on characters, recursive-descent parser | lexing the printed text gives the printed tokens; parser completeness for them; exactly the constraints that round-trip are characterised; witnesses for xor, division, negative literals, odd names |
| C02 | parser on token lists | declarative level-indexed grammar; soundness, completeness, unambiguity |
| C03 | lexer and parser with a UB outcome | induction on text and tokens; the empty text is undefined |
| C04 | lexer | parser factors through whitespace erasure; lexer loses nothing |
| C05, C06, C49 | builder as heap of slots with a frame stack | simulation by an operator-precedence machine, then to the grammar of C02; errors absorb |
| C07 | `parseInteger`, LLVM decimal reading, decimal to double to integer | induction on digit strings; literals with `e` are the nearest integer of the nearest double (`roundEven`), exact up to `2 ^ 53`, refuted beyond; digits with signs among them saturate |
| C08 | constraint objects with parent pointers, constructors, `clone`, `getRoot`, `toString`, `setFeature` | induction over the tree; forest invariant over all programs |
| C09 | heap, `AddConstraintToModel` | exact effect by induction over the visitor; refutation for every missing feature |
| C10 | step-function lexer and parser | case analysis on token lists, lexer lemmas |
| C11, C12, C13 | option conversion, option map, JSON object | digit strings; induction over histories; witnesses |
| C14, C15, C48 | source locations, member offsets | case analysis, induction on strings, arithmetic |
| C16 | object graph, three consistency rules | exact characterisation; detached cycle as witness |
| C17, C18, C19, C20, C50 | transactions over the object graph | invariant `WF` per modification, induction over operation lists; frame argument for copies; witnesses. C20 also for descriptions (`Verif/FM/CopyScript.lean`): calls of a copy transaction resolved when they are made, compared with edits of the description |
| C21, C22, C23, C24, C51, C52 | single modifications | pre/post conditions on the abstract tree |
| C25, C26, C27, C47 | DFS iterator, `operator<`, ordered insertion, `getChildren` | order on name paths; equals a declarative pre-order |
| C28, C29 | builder, clone | runs of modification lists described by `Spec.Describes` |
| C30 | `mergeFeatureModels` | induction over the second tree, relating the copy to both inputs; a second root persists, so the final check fails; `Verif/Merge/Desc.lean` states the result on descriptions (`Desc.Takes`, `Desc.merged`), `Verif/Merge/Describe.lean` proves it |
| C31 | `removeFeatures` | termination measure, pre/post conditions, refutations |
| C32 | writer, DTD as regular expressions | every part of the writer meets its content model |
| C33 | writer and reader composed | the written document is a `Spec.Doc`, so C57 applies; exact description of what is kept (`WrittenAs`), idempotence, general refutations |
| C34 | `detectXMLAlternatives` | exact characterisation for any document |
| C35, C36, C37, C56 | SXFM parser parts | string induction; an infinite rewrite as witness |
| C55 | SXFM parser and the builder on its calls (`Sxfm/Safe`, `FM/BuildSafe`) | invariant over the lines: groups made or open have different owners that were made; edges in any shape, then groups, then constraints are never undefined |
| C38, C39, C43, C44, C45 | typed terms, encoding | evaluation semantics; exact set of models |
| C40, C41, C42, C53, C54 | enumeration over an oracle | induction on the remaining models; with xor, exactly the configurations of the model with "not both" instead (`Spec.notBothIn`) |
| C46 | rows handed out by the CSV reader, map handed to YAML | induction over rows, features and configurations; sorted permutations are equal |
| C57, C58, C59 | XML reader | document specification with encoder; every part read back; crash freedom of the whole load under `Harmless` and `RootTied`, with parents in any shape otherwise (`FM/Loose`, `FM/LooseGroups`, `Xml/Safe`); numbers in any spelling or beyond their type for one line and one bound (`Props/XmlNumbers`), negative lines refuted |
| C63 | XML reader | a relation between documents that says what layout and spelling are (`Xml/LayoutSpec`); every function of the reader gives the same for related elements (`Xml/LayoutText` for texts that differ in more than blanks) |
| C60 | `GraphWriter` for feature models | induction over the recursion; a reader with a stack of blocks defines what is shown |
| C61 | `toHTML`, `EscapeString`, feature labels | a reader for character data of HTML-like labels (`<` and `&` never stand for themselves, a backslash does); induction over constraints |
| C64 | `main` of the configuration generator over a map of files | composition of C57, C40 and C46; validity restated on descriptions (`Solver/DescSpec`), equivalent to validity of the tree (`Solver/DescValid`) |
| C65 | `main` of the viewer over a map of files | cases; composition of C57, C60 and C62 |
| C66 | equality, hash and order of features | unfolding, C26 for the order; counterexample |
| C67 | `updateLocation` on a feature of a model | induction over the locations; counterexample for revisions |
| C68 | builder object with its three transactions and `Parents` | induction over the calls before and after building |
| C69 | bound functions of the builder | reduction to C28 |
| C70 | `addFeatures` | induction over the list, C21 |
| C71 | SXFM loading and the solver together | C36 and C40; the lines as a list of nodes, induction over the tree |
| C72 | XML writing, reading and the solver together | C33 and C40 on descriptions; `Carried` says what a document can carry; or-groups, ranges and others refuted |
| C74 | the writer as a program of calls to the XML library (`Xml/Calls`), return codes arbitrary | every part of the writer makes a list of calls that adds its elements to the open element (a machine with a stack of open elements says what calls write), or crashes; the first failing call ends it |
| C75 | `verifyFeatureModel`, `loadFeatureModel` on files | cases; C57, C58 and C59 |
| C76 | adding a constraint, valid configurations (`Solver/Spec`) | effect of the modification (C09), which changes nothing configurations depend on but the constraints (`Solver/Edits`); C40 for `getAllConfigs` |
| C77 | adding a feature | effect of the modification (C21); the conditions of validity one by one, parent features unchanged for all others |
| C78 | removing a feature | effect of the modification (C21); a configuration is valid for the whole exactly if it is for what is left and for the subtree (`Solver/EditsRemove`); the removed part is unselected, or selected as in some valid configuration |
| C79 | adding and removing relationships | effect of the modifications (C23), both cases of one description of "the same with a group" (`Solver/EditsGroup`) |
| C80 | setters, locations, `setRoot` | nothing configurations depend on changes; for the root, the new and the old root correspond |
| C81 | moving a feature or a group | effect of the modification (C22); one lemma for a node placed below any parent, used for the old and the new parent |
| C82 | Python programs that edit | a sheet of names and parents (specification) kept up to date by every statement; induction over the program |
| C83 | scripts of transactions, with loading and saving | every modification is an edit of the description (`Desc.edit`); induction over transactions; C57, C33, C72, C40 |
| C84 | steps in double arithmetic (`Step/Ieee.lean`) | exact results for integers that are doubles, rounding is monotone between doubles; orbits of increasing functions |
| C85 | overload resolution when a `Result`, `Ok` or `Error` is made from another (`Utils/Result.lean`) | cases of the argument's value category; copies of variables are faithful exactly if no `bool` converts to the types |
| C86 | `StepFunction::toString` with `formatv` of doubles (`Step/Text.lean`), read back by the parser of C10 | spacing of doubles against hundredths: below `2^46` a hundredth is recovered from its double, above every double from its hundredth |
| C87 | composition: documents (C57), step texts and doubles (C84), solver and generator (C40, C64) | `NumberOf`: the values one would read off an option; the solver's orbit is exactly these; conversely `load_bad_range`: a range whose loop gives no values spoils loading the whole model, by induction over the features in the order of iteration |
| C88 | `Verif/Solver/Lazy.lean`: calls of a solver, iterables with any number of iterators (ConfigurationFactory.h:16-63) | the machine `Point` (constraints added, configurations given) with `Step`/`ItStep`; the solver state stands for the point (`At`), every call keeps this; loops by the number of configurations left |
| C89 | `Verif/FM/EditLoop.lean`: the loop `for (F : FM) Body(F)` with a body that edits (FeatureModel.h:86-166, pybind_FeatureModel.cpp:137-142); the body is any function of what was visited, the model and the feature | invariant `Walking` between rounds (what waits is new, incomparable with what was visited, and its parent was visited), kept by every `Gentle` edit; visits, order of additions and the number of rounds by induction over the rounds; programs built from the one-call helpers of C82; `Verif/FM/MoveLoop.lean` for bodies that move features, where a feature can wait twice: the number of rounds by a measure that falls also when a feature comes again; `Verif/Props/AnyEdit.lean` for bodies that do both, with the weaker invariant that only the features that may be removed wait at most once |
| C90 | `Verif/Source/Held.lean`: the locations of one feature as a vector with buffer and capacity, Python objects as references into a buffer, iterators as pybind11's `make_iterator` keeps them (pybind_Feature.cpp:55-82, pybind_FeatureSourceRange.cpp:61-72, 94-101, Feature.h:92-122); reading freed or passed memory is a distinct outcome; the growth of the vector is a parameter | relation `Answers` between what a program should see (locations with identities) and each call; `Sees` is kept by every call and lifted to call sequences; loops by induction over the locations left |
| C91 | `Range.toStr` (`Verif/Graph/Model.lean`), `Verif/Source/PyOffset.lean` (pybind_FeatureSourceRange.cpp:90-101; conversion of Python integers to `int` and `unsigned` as pybind11 does it) | the path cannot reach into the rest of another text (cases over the first bytes of dash and member part), numbers cancel as maximal runs of digits |
| C92 | `Verif/FM/Walk.lean`: the methods of the Python class `FeatureTreeNode` (pybind_Feature.cpp:13-38, FeatureTreeNode.h:54-99) and the two programs that go down and up with them, with a bound on the recursion | by induction on the bound, which exceeds the number of addresses; subtrees of two children are apart; the features met are a permutation of those of C25 |
| C93 | `Verif/Constraint/Visitor.lean`: `ConstraintVisitor` and `accept` (Constraint.h:632-650, Constraint.cpp:5-15) for any record of overrides; the visitor of `AddConstraintToModel` (FeatureModelTransaction.h:587-605) as an instance | places of a tree with their order as specification; `accept` is the fold over all places in that order, which is unique |
| C94 | `Verif/Solver/Hand.lean`: all calls of `Solver` on a solver that starts empty (Z3Solver.cpp:9-248), objects taken from a model | the machine `Hand` (options with kinds, what has to hold, configurations given) with `HStep`; the solver state stands for the machine state (`HAt`), with the options there were when each configuration was given; from it the statements without machine, `C94_valid` and `C94_enumerates`; `Verif/Props/HandWhole.lean`: what all calls for a model demand is `Valid`, and the solver the factory fills is a state of the machine |
| C95 | `Verif/Python/Keep.lean`: all Python objects ever made, with what they keep and whether a variable refers to them; the calls of the bindings with their policies (pybind_FeatureModel.cpp:21-54, 70-78, 137-159, pybind_Feature.cpp:16-35, 55-61); a use after the model is freed is a distinct outcome | `Rooted` (each object keeps, directly or not, the model) and `Homely` (all models are held) are kept by every call; `live` is exactly what is reached from variables; freed objects are never handed out again |
| C96 | `Verif/FM/OpenTx.lean`: a model (or none, once deleted) and any number of transaction variables; open, call, move to a new variable, move assignment, destruction (FeatureModelTransaction.h:47-76, 978-1006, 1094-1098), each on top of `FModel.txStep` | spec `AllDo`: a transaction's state is a function of the calls made so far (`recorded`, `ended`), and each first commit or destruction applies it; both directions by induction over the program. Moves: a simulation `Alike` between the program with the move and the renamed one |
| C97 | `Verif/Xml/Desk.lean`: one heap and any number of `unique_ptr<FeatureModel>` variables; building, loading, cloning, merging, both kinds of transactions, destruction, each by the model of the single function | spec `Same` (members and every owned node as before), `Tidy` (well-formed, nothing shared), `Goes` (one description changes). `Verif/FM/Region.lean`: no modification reaches a set of addresses that no pointer of the model leads into, for every modification and also when it fails; `Frame` for calls that make models, now also loading. Histories by induction with `Tidy` and the descriptions as invariant |
| C98 | `Verif/Xml/Lab.lean`: `Desk` and any number of `FeatureModelCopyTransaction` variables; the copy a transaction holds has a place on the desk that the program cannot name until commit gives it out. `Continue`, `FM`, every call on a missing copy, moves member by member (`unique_ptr`), the destructor's assertion | spec `Does`: one description or one transaction changes, with the answer; `Target`: the only model an operation may touch. Isolation from `Region.copyExec`; histories by induction with `LabOk` (copies alive and in one transaction each); `C98_once` for all programs by an invariant on who holds which copy |
| C99 | as C83 (`runScript`, `Desc.edit`, `Desc.Can`); `Closed` (`Verif/FM/Closed.lean`): what every step of every modification keeps | `Leads d d'`: from each model described by `d` a script leads to one described by `d'`; inverse scripts for every modification but one (removed subtrees are added again parents first, groups around them dissolved and made again, locations cleared and filled again). Constraints stay: an invariant over all modifications, no condition on them |
| C100 | `Desk` (C97): one heap for all models, destructors free what the containers own; results dropped on failure (builder, aborted copy) are models that are destroyed | `Exact`: the heap holds exactly what is in the feature map or relationship vector of a model in a variable, each object once and in one model; invariant over all modifications by `Closed` (`Ledger`), then over all programs, without conditions on the pointers they use |
| C101 | `mergeFeatureModels` (C30); configurations as in C38 (`Valid`), stated without the solver | the result against the clone it starts from (`MergeInv`): old features, their groups and constraints as before, new ones directly below their parent (`valid_merged`); the clone has the configurations of the first model (C73); `Asks` says what a plain child asks for |
| C102 | as C30 | `SameFeatures`: two models compared by names only; from C30's description of both results. Nothing new: the copy is not touched by any step of `mergeSubtree`, by induction on its depth |
| C103 | as C33 | `SaysSame` compares two descriptions; features of the same name (`Twin`) are ordered alike by `operator<`, so that sorted lists with the same names in the same number are equal (`Xml/Canonical.lean`). `Calm`, `NoneNew` say when nothing is repeated; `implications` counts in the model itself |
| C104 | as C57, C63, C103 | `SameContent` pairs the options of two documents (`Xml/Shuffled.lean`); both describe the same up to order, so that C57 and C103 compose. `Xml/Storable.lean` derives from the document that its contents can be saved: paths from their text, constraints from the grammar (`Props/Reparse.lean`) |
| C105 | as C30 | a merged model is shown to have a description again (`Merge/Again.lean`), so that C30 applies to it; features are compared by their members and the name of their parent (`Merge/Look.lean`), on which merging is an associative partial operation (`Merge/Three.lean`); models are carried over to the heap of a later result (`later`) |
| C106 | option objects by address, texts as views of them, loops with an insertion count for iterators (`Config/Objects.lean`) | induction over calls with the invariant `Objs.Ok`; loops refine `visit`, which works on values |
| C107 | the texts of the error codes, `operator<<` of `Result` with the copy it makes (`Utils/Print.lean`) | case distinction over the codes, digits against letters |
| C108 | the Python constructors, properties and comparison of `Location` and `LineColumnOffset`, with variables that refer to objects or into locations (`Source/PyLoc.lean`) | invariant that every variable refers to something; every object against the list of assignments aimed at it, by induction over programs |
| C109 | as C25, C26, C27 | twins are the only obstacle: each direction of each equivalence, the failing ones by the sequence of calls or the two layouts built from any twins (`Props/Twins.lean`, `Props/Layout.lean`) |
| C110 | as C01 | the round trip and, for the converse, that the parser yields identifiers only and has no token for the rest (`C01_roundtrip_iff`) |
| C111 | as C89 | `Props/AnyEdit.lean` |
| C112 | as C38 | invariant over the features added so far (`Loaded`, `Props/SolverOptions.lean`) |
| C113 | as C28 | `Loose` models (parents in any shape) through all edges; for the tree a rank that counts the features above one (`Props/AnyEdges.lean`) |
| C114 | as C29 | `Outlines`: what `clone` reads of a model, which every well-formed model with at most one group below each feature has; the calls made from it build a described model, if names are free when they are given (`FM/BuildOrder.lean`, `FM/CloneAny.lean`, `Props/CloneExact.lean`) |
| C115 | the SXFM parser and the builder together | nothing but `addConstraint` changes which constraints a model has (`ClosedQuiet` in `FM/Closed.lean`, `FM/BuildStores.lean`), so what is built has those of the calls; `parseConstraints` line by line (`Props/SxfmLines.lean`) |
| C116 | the XML parser, the builder and the detection of alternatives together | as C115: the calls `parseVm` makes for each element, what is built from them, and that `detectXMLAlternatives` adds relationships only (`Props/XmlConstraints.lean`) |
| C73 | `clone` and the solver together | C29 and C40 on descriptions; ranges and groups beside children refuted |
| C62 | `Feature::toString`, `dump` | equality with a record of fields, whose text is injective |

## Where the code disagrees with the property

Each line is a proved theorem (see the notes in `MANIFEST.json`).

* C01: printed xor, division and negative literals do not parse back. C03: the empty constraint text is undefined.
* C07: `1+2` style texts are one malformed literal in one case. C10: step functions without a constant.
* C11: `TRUE` converts to false. C13: `begin() const` returns `end()`. C14: range equality ignores revisions.
* C16: a detached cycle passes the consistency check. C17, C22: moving a feature below its own descendant is accepted.
* C18: a failing modify transaction keeps what it did before. C20: a copy transaction ignores `addChild`.
* C21: removing a leaf with several empty groups leaks nodes; removing the root is undefined.
* C23, C24: removing a feature leaves constraints that point to it, after which cloning, writing and setting up a solver are undefined (`C24_dangling_clone`, `_write`, `_solver`); wrong group removed with two groups.
* C26, C27: siblings `A` and `a` break the order. C28, C58: cycles are accepted by the builder (any cycle: `C28_any_edges`) and by the XML parser (any cycle: `C58_any_cycle`).
* C29: `clone` drops output strings, step functions, locations of the root, and puts children beside a group into it; exactly when the clone is the same is C114. C31: bulk removal misreports.
* C31: listing a leaf twice is undefined through its address, and by name loses the leaves listed behind it (`C31_pointer_listed_twice`, `C31_name_listed_twice`).
* C31: a feature listed with one that is below it but not its child ends the transaction early (`C31_nested_listed`). When everything between the two is listed, and sets of children are visited in the order of addresses (`llvm::SmallSet<_, 3>` does so for more than three elements), all goes well (`C31_chains_partial`).
* C49: `build()` moves the features out of the builder, so a second call returns a constraint without them (`C49_second_build`), and any call of `build()` in the middle of an expression, also one that returns null, changes how the rest is grouped (`C49_build_regroups`, `C49_null_build_regroups`).
* C30: merging models with different root names crashes; parents `A` and `a` are confused.
* C33: writing drops output strings, step functions, member offsets, revisions; narrows list values; or-groups become
  alternatives; other root names and features of no kind are not read back.
* C35, C36, C37, C55, C56: SXFM cardinalities `[1,-1]`, an endless rename, cut names, crashes, lost constraints.
* C38, C39: xor is encoded as "not both". C42: `isValid` is always true. C44: `x*2` from 0 never ends.
* C46: more than ten configurations are written out of order; quotation marks make the list ambiguous; `010` becomes 8.
* C53: negative numbers read back as text. C54: no valid configuration gives an error instead of 0.
* C59: an empty constraint, a position beyond `int` and a mixed constraint without attributes crash the XML parser. A document that places the root below two options that are each other's parent passes validation and building; `detectXMLAlternatives` then iterates past the last feature (undefined).
* C61: `toHTML` leaves nested `&`, `<`, `<=`, `<=>` raw; labels show `\|`, `=\>`; output strings are not escaped.
* C63: blanks around the names in `children` are kept, so that such a document is rejected.
* C64: negative numbers are written as `(- 5)`; an empty sample set ends with 0 and keeps the old output; a missing one is an uncaught exception.
* C65: `--verify` makes no difference to any run; an output file that cannot be opened ends with 0; `--dump` ignores `-o`.
* C66: equality ignores case but names are kept apart by case, so `A` may equal its child `a` and be less than it.
* C67: equality of locations ignores revisions, so the wrong one of two locations may be replaced.
* C68: with assertions, using a builder after it has built is undefined.
* C69: `make_binary_feature` drops the optionality; relations with unknown names are alternatives.
* C84: the fraction of a step is dropped each time (`x + 1.5` steps by 1, `x + 0.5` never ends); `x + 1` from `2^53` never ends; `x * 2` overflows up to `2^62` and from negative minima.
* C57: `true` makes a feature mandatory, only the spelling `True` makes it optional.
* C57: bounds may be written in scientific notation, but the elements of a list of values may not: `1e3` in `values` is read as the two values 1 and 3 (`C57_values_exponent`).
* C83: a child added beside a group makes saving lose the group and keep the exclusions of its members.
* C70: a list of features with a taken name is added up to that name, silently.
* C71: a negated literal of an SXFM clause is an arithmetic negation; the solver cannot be set up for such a model.
* C74: writing to a file that cannot be opened returns zero, which is no error; a failing dump of the text is not noticed.
* C75: verifying looks at the DTD only; files that verify may give no model or crash the loader.
* C76: a constraint that names a missing feature is reported as an error and restricts the configurations all the same.
* C72: writing and reading loses every configuration with two members of an or-group, and models with ranges cannot be given to the solver any more; groups with optional members and siblings that exclude each other gain configurations.
* C73: the solver crashes for the clone of a model with a range, as `clone` drops the step function; a child beside a group joins it in the clone. If the child is mandatory and the group an alternative, no configuration that selects their parent stays valid (`C73_loses`).
* C62: members of a group are missing from the children of their parent.
* C86: constants are printed with two digits after the point, so `x + 0.001` reads back as `x + 0`; negative and infinite constants print as texts that cannot be read.
* C85: copying a result held in a variable turns errors into successes if the value is a `bool`, a number or a vector.
* C88: `std::distance(begin(), end())` of a lazy iterable is one more than the number of configurations, as the first increment finds the first configuration; a second loop sees only the last configuration; the current configuration may violate constraints added after it was given. With an exclusive or among the constraints added, the solver says there is a configuration, and gives one, where there is none.
* C89: `for f in fm: fm.remove_feature(f)` is undefined for every leaf (`C89_remove_current`) and every subtree (`C89_remove_current_recursive`), since `operator++` runs after the body and asks the freed feature for its children; a freed feature that waits in the iterator is handed out (`C89_remove_pending`, `C89_remove_sibling`); a loop adding a child to each feature it visits never ends (`C89_add_to_each`); `operator++` looks into `Visited` only when it pushes, so a feature moved below an earlier sibling in that sibling's round is visited twice (`C89_move_twice`, in every model), and one moved below a passed feature may never be visited (`C89_move_lost`). Addresses are never reused in the model; with a real allocator a feature added meanwhile may get the address of a removed one in `Visited` and be skipped.
* C90: location objects are references into the vector of the feature: `add_location` may invalidate all of them (`C90_add_invalidates`), `remove_location` moves the following locations under the objects of others (`C90_remove_shifts`), and `for l in f.locations: f.remove_location(l)` is undefined as soon as there are two locations, even over `list(f.locations)` (`C90_remove_loop`, `C90_remove_forwards`).
* C91: `str(location)` leaves out category and revisions and is ambiguous if a path contains a colon (`C91_colon_in_path`); `LineColumnOffset(-1, 1)` is accepted and shows 4294967295 (`C91_negative`), while assigning -1 is refused, and numbers from 2^31 can be assigned but not given to the constructor (`C91_assigned`).
* C92: the Python method `parent()` is documented as the parent feature; for a feature in a group it is the group, an object of a class without `name`, and `is_child`/`is_parent` say that the feature is no child of its parent feature (`C92_grouped_parent`).
* C94: Solver.h:85-91 promises an error for a constraint about features that have not been added; `addConstraint` and `addRelationship` never look and silently constrain a variable that no configuration shows. `getCurrentConfiguration` after a later `addFeature` completes the old Z3 model, so a number can be shown with a value it does not have; and what was given before is not given again with values for the new option.
* C95: `get_root`, `get_feature` and `parent` use the policy `reference`, `locations` and the lists of constraints have no `keep_alive`: `loadFeatureModel(p).get_root().name` uses freed memory (`C95_not_kept`). `for f in fm` keeps the model, unless Python already has an object for that feature from `get_feature`, which is then given again and keeps nothing (`C95_same_object`).
* C96: the defaulted move constructor and assignment of a transaction move the queue but not `FM` and `Continue`: the source stays open and commits what is recorded on it later (`C96_moved_still_open`), its destructor checks the model even if that is gone (`C96_moved_outlives`); move assignment drops the target's queue, which its destructor would have executed (`C96_assign_loses`).
* C97: `addFeature` takes any feature pointer as the parent and no consistency rule asks whether the parent belongs to the model: with a feature of another model the transaction succeeds, the other model gets a child it does not own, and every query for children there is undefined after the owner is destroyed (`C97_foreign_parent`, for any two models).
* C98: a copy transaction that is over answers additions, `setRoot` and `commit` with an error but dereferences null in `removeFeature`, `removeRelationship`, the location calls, `setName`, `setCommit` and `setPath` (an assertion at best, `C98_after_end`); move assignment drops the target's uncommitted copy silently although the destructor asserts that this does not happen (`C98_assign_loses`).
* C99: no modification removes a constraint, so adding one cannot be undone (`C99_constraint_for_good`).
* C101: merging loses the groups and constraints of the second model. New members of an alternative group become plain children, all mandatory if not optional (`C101_alternative_lost`); also with `Strict` only the first model counts for common features (`C101_first_wins`: the kind of a group is not compared).
* C102: the order matters for constraints and groups, and without `Strict` for every attribute of common features (`C102_constraints_of_first`, `C102_order_fails`).
* C103: saving and loading again and again repeats some implications without end: `A => A` is written twice in the element of `A`, once for each mention, so that the number doubles; `A => B` kept as mixed constraint is written in `impliedOptions` and again among the mixed constraints (`C103_grows`, `C103_fails`).
* C104: siblings `A` and `a` are equivalent under `operator<`, so that their order in a saved document is that of the hash set of children (`C104_case_fails`; for all models and layouts `C104_layout`).
* C105: merging copies features out of their groups, but strict merging compares whether features are in a group: `merge(merge(A, B), C)` fails where `merge(A, merge(B, C))` succeeds if B and C have the same group of features that A does not have (`C105_groups_fail`). Features without kind can be merged but not copied, with the same effect (`C105_kinds_fail`).
* C25, C26, C27: with `A` and `a` below one feature the order of iteration depends on the layout (exactly then: `C25_independent_iff`), and `operator<` is no strict weak order if one of them has children (exactly then: `C26_weak_iff`), so that sorted insertion is undefined (exactly then: `C27_sorted_iff`).
* C38: features of unknown kind are left out with everything below them, and the error codes are dropped (`C38_options`); a Boolean feature below a numeric one and an alternative without members end in an exception of Z3 or worse (`C38_numeric_parent`, `C38_empty_alternative`).
* C27: an ordered vector does not notice that the tree changes after an insertion (`C27_stale`).
* C94: `SolverFactory::initializeSolver(Type)` puts the model of an empty builder into the solver, so the "empty" solver has an option `root` (`C94_default_root`).

## Mutation tests

Definitions of the model are edited as a realistic bug would, in a copy outside `/verif`, and everything is rebuilt.
`theorems_failed` in the log are the theorems whose existing proofs no longer go through; a theorem that still
went through although its claim had become false was tightened and is listed under `theorems_tightened`.
