{"id": "C01", "title": "Printing then parsing a constraint gives it back", "statement": "For every constraint tree, ConstraintParser(C.toString()).buildConstraint() yields a tree equal to C, except that an 'excludes' comes back as the equivalent implication with a negated right-hand side. This should hold for every constraint that the API can build.", "quantifier": "every constraint tree of any depth, every operator, every feature name and every 64-bit integer literal", "why_tests_cant": "Trees are unbounded in depth and operator combination; tests print a handful. The excluded operators/literals (xor, division, negative numbers, non-identifier names) show up only for particular trees.", "anchors": ["include/vara/Feature/Constraint.h: toString of all Constraint classes", "include/vara/Feature/ConstraintParser.h: ConstraintTokenizer::tokenize, ConstraintParser::buildConstraint"]}
{"id": "C02", "title": "The constraint parser implements the documented precedence grammar", "statement": "buildConstraint() returns a tree exactly when the token sequence is a sentence of the infix grammar with precedences * < + - < comparisons < = != < & < | < => < <=> (tightest first), all binary operators left-associative, prefix ! and ~ binding tightest, and parentheses overriding; the tree returned is the one tree the grammar assigns, and otherwise the result is null.", "quantifier": "every token sequence (any length, any nesting)", "why_tests_cant": "The set of token sequences is infinite and precedence/associativity mistakes show only on particular operator combinations and nestings.", "anchors": ["include/vara/Feature/ConstraintParser.h: ConstraintToken::calcPrecedence, parseConstraint, parseUnaryConstraint, parseBinaryConstraint"]}
{"id": "C03", "title": "Constraint lexing and parsing terminate without reading outside the token list", "statement": "For every input string the lexer stops after at most one token per character, the token list it returns ends in exactly one end-of-file or error marker that occurs nowhere else, the parser never removes that marker and never looks at an empty token list, and it returns a tree or null. The empty string must be covered too.", "quantifier": "every input string, including empty, non-ASCII, embedded NUL and truncated input", "why_tests_cant": "Memory safety on all malformed inputs cannot be sampled; the failing input (the empty string) is a single corner point.", "anchors": ["include/vara/Feature/ConstraintParser.h: ConstraintTokenizer::tokenize, munch, munchWhile, ConstraintParser::peek, next, consume"]}
{"id": "C04", "title": "Whitespace never changes what a constraint means", "statement": "Adding or removing whitespace between tokens does not change the result of parsing; tokenizing drops no non-whitespace character: the token spellings concatenate back to the input.", "quantifier": "every token sequence and every placement of whitespace", "why_tests_cant": "Unboundedly many whitespace placements.", "anchors": ["include/vara/Feature/ConstraintParser.h: ConstraintTokenizer::munch, ConstraintParser::trim, consume"]}
{"id": "C05", "title": "ConstraintBuilder and ConstraintParser agree", "statement": "For every sequence of ConstraintBuilder calls over the operators that the textual language also has, build() returns a constraint if and only if the parser accepts the corresponding token sequence, and then both return the same tree.", "quantifier": "every finite sequence of builder calls", "why_tests_cant": "Call sequences are unbounded; the builder uses an explicit stack of slots, the parser recursion, and they agree only if the stack discipline is right for every interleaving of operators and parentheses.", "anchors": ["include/vara/Feature/ConstraintBuilder.h: ConstraintBuilder::binary, unary, primary, openPar, closePar, operator(), build", "include/vara/Feature/ConstraintParser.h"]}
{"id": "C06", "title": "Misuse of the ConstraintBuilder is sticky and never yields a constraint", "statement": "Once a call is made in a position where it is not allowed (operand after operand, operator without left operand, unmatched closing parenthesis), every later call sequence still makes build() return null; build() also returns null when an operand is missing or a parenthesis is still open. Calling the builder as a function parenthesizes everything so far.", "quantifier": "every call history before and after the first error", "why_tests_cant": "The history before and after the error is arbitrary.", "anchors": ["include/vara/Feature/ConstraintBuilder.h: ConstraintBuilder"]}
{"id": "C07", "title": "Integer literals are read exactly when they fit, and saturate otherwise", "statement": "A decimal literal whose value fits a signed 64-bit integer is read as that value; a larger one is read as the largest 64-bit integer. Numbers printed by the library are read back unchanged. Two literals separated only by + or - are two operands.", "quantifier": "every digit string", "why_tests_cant": "Unbounded literal lengths and all boundary values.", "anchors": ["include/vara/Feature/ConstraintParser.h: parseInteger, munch number case"]}
{"id": "C08", "title": "Cloning a constraint yields an equal, independent tree", "statement": "clone() of a constraint has the same shape, operators, literals and feature names, prints the same text, and every subtree's root pointer leads to the clone's own root.", "quantifier": "every constraint tree", "why_tests_cant": "Unbounded trees; aliasing/parent-pointer mistakes appear only in deep trees.", "anchors": ["include/vara/Feature/Constraint.h: clone, setParent, getRoot, BinaryConstraint, UnaryConstraint"]}
{"id": "C09", "title": "Adding a constraint registers it with exactly the features it mentions", "statement": "After a successful addConstraint every feature leaf of the constraint denotes the model's feature of that name, every mentioned feature lists the constraint, no other feature does, and implication/exclusion between features is recorded in the implies/excludes lists exactly when the constraint's root is an implication/exclusion. If a mentioned feature does not exist the model is unchanged.", "quantifier": "every model and every constraint tree", "why_tests_cant": "Quantifies over all trees and all models, and the error path requires comparing the whole model before and after.", "anchors": ["include/vara/Feature/FeatureModelTransaction.h: AddConstraintToModel, AddConstraintToModelVisitor", "lib/Feature/Feature.cpp: Feature::addConstraint"]}
{"id": "C10", "title": "Step-function text is accepted exactly when it is operand operator operand", "statement": "StepFunctionParser accepts exactly the texts made of one identifier and one number joined by one of + * ^, in either order, with any whitespace; the resulting function applies the operator with operands in the written order. No accepted text leaves the constant undefined.", "quantifier": "every string", "why_tests_cant": "All strings; the undefined-constant case is a corner of number syntax.", "anchors": ["include/vara/Feature/StepFunctionParser.h: StepFunctionParser", "include/vara/Feature/StepFunction.h: StepFunction::next"]}
{"id": "C11", "title": "Option values survive conversion to and from text", "statement": "Converting a configuration value to text and back yields the same value (booleans, 64-bit integers, other strings); conversion is idempotent; texts that spell a boolean in any letter case yield that boolean.", "quantifier": "every string and every 64-bit integer", "why_tests_cant": "Infinite input space with radix prefixes, leading zeros, signs, overflow and letter case corners.", "anchors": ["lib/Configuration/Configuration.cpp: ConfigurationOption::convert, asString"]}
{"id": "C12", "title": "A configuration behaves like a map and survives dumping and loading", "statement": "After any sequence of setConfigurationOption/addConfigurationOption calls, lookups return the value last set for that name; dumping to JSON text and loading it again gives a configuration with the same names and values.", "quantifier": "every finite sequence of operations", "why_tests_cant": "Unbounded operation histories.", "anchors": ["include/vara/Configuration/Configuration.h: Configuration", "lib/Configuration/Configuration.cpp: createConfigurationFromString, dumpToString"]}
{"id": "C13", "title": "Iterating over a const configuration visits every option", "statement": "Iterating a configuration through the const interface visits the same options as iterating the non-const one.", "quantifier": "every configuration", "why_tests_cant": "Would need iteration of every configuration; the const overload is untested.", "anchors": ["include/vara/Configuration/Configuration.h: Configuration::begin const, end const"]}
{"id": "C14", "title": "Source locations are totally ordered and ranges compare by content", "statement": "The location order is a strict total order (irreflexive, transitive, total up to equality) consistent with ==, and two feature source ranges are equal exactly when path, start, end, category, member offset and revision range all are.", "quantifier": "all triples of locations; all pairs of ranges", "why_tests_cant": "Order laws quantify over all triples.", "anchors": ["include/vara/Feature/FeatureSourceRange.h: FeatureSourceLocation::operator<, operator==, FeatureSourceRange::operator=="]}
{"id": "C15", "title": "Member-offset names round-trip", "statement": "createFeatureMemberOffset(s) succeeds exactly when s contains '::' followed by a non-empty last component; the result prints as s again, its member name has no '::' and class name and nested names are the '::'-separated components before it.", "quantifier": "every string", "why_tests_cant": "All strings, including repeated and odd numbers of colons.", "anchors": ["include/vara/Feature/FeatureSourceRange.h: FeatureMemberOffset::createFeatureMemberOffset, toString, className, splitMemberOffset"]}
{"id": "C16", "title": "A model that passes the consistency check is a rooted feature tree", "statement": "If the consistency check accepts a model then it has exactly one root feature, and every feature reaches that root by following parents; i.e. parent links contain no cycle and no feature is unreachable from the root.", "quantifier": "every feature-model object graph", "why_tests_cant": "Quantifies over all object graphs; cycles detached from the root are not produced by the tests.", "anchors": ["include/vara/Feature/FeatureModel.h: FeatureModelConsistencyChecker, CheckFeatureParentChildRelationShip, EveryFeatureRequiresParent, ExactlyOneRootNode"]}
{"id": "C17", "title": "Modify transactions keep the model a well-formed tree", "statement": "Starting from a well-formed model, after any sequence of transaction operations that commits successfully the model is again well-formed: unique names, every parent link matched by exactly one child edge and vice versa, one root, no cycles, no reference to a deleted object.", "quantifier": "every well-formed model and every finite operation sequence", "why_tests_cant": "Operation histories are unbounded and interact (relationships, moves, removals).", "anchors": ["include/vara/Feature/FeatureModelTransaction.h: AddFeatureToModel, RemoveFeatureFromModel, AddRelationshipToModel, RemoveRelationshipFromModel, AddChild, SetRoot", "include/vara/Feature/FeatureModelTransaction.h: FeatureModelModifyTransactionBase::commitImpl"]}
{"id": "C18", "title": "A failed modify transaction leaves the model unchanged", "statement": "If commit of a modify transaction reports an error, or the transaction is aborted, the model is exactly as it was when the transaction was opened.", "quantifier": "every model, every operation sequence, every failing position", "why_tests_cant": "The failing position and preceding operations are arbitrary.", "anchors": ["include/vara/Feature/FeatureModelTransaction.h: FeatureModelModifyTransactionBase::commitImpl, abortImpl"]}
{"id": "C19", "title": "A copy transaction never changes the original model", "statement": "Whatever operations run in a copy transaction, and whether it commits or aborts, the original model is unchanged, and the committed result is a different object.", "quantifier": "every model and operation sequence", "why_tests_cant": "Unbounded operation sequences.", "anchors": ["include/vara/Feature/FeatureModelTransaction.h: FeatureModelCopyTransactionBase"]}
{"id": "C20", "title": "Copy and modify transactions compute the same result", "statement": "Executing the same operation sequence in a copy transaction on M and in a modify transaction on a clone of M commits in the same cases and gives the same resulting model.", "quantifier": "every model and every operation sequence", "why_tests_cant": "Two implementations of every operation must agree on every history.", "anchors": ["include/vara/Feature/FeatureModelTransaction.h: FeatureModelCopyTransactionBase, FeatureModelModifyTransactionBase"]}
{"id": "C21", "title": "Adding and removing features has exactly the documented effect", "statement": "addFeature adds one feature of the given name below the given parent (or the root) and nothing else, and fails without effect if the name exists; removeFeature removes the feature (with its whole subtree if recursive) and nothing else, and fails without effect if the feature is missing or, non-recursively, has child features.", "quantifier": "every well-formed model, every name and parent", "why_tests_cant": "All models and positions, including subtrees of any depth with relationships.", "anchors": ["include/vara/Feature/FeatureModelTransaction.h: AddFeatureToModel, RemoveFeatureFromModel"]}
{"id": "C22", "title": "Moving a feature keeps the tree a tree", "statement": "addChild makes the feature a child of the new parent, removes it from the old one, keeps its subtree, and is rejected when it would put a feature below itself or below one of its own descendants.", "quantifier": "every well-formed model and pair of features", "why_tests_cant": "Requires all ancestor depths; the check in the code only covers depth zero.", "anchors": ["include/vara/Feature/FeatureModelTransaction.h: AddChild"]}
{"id": "C23", "title": "Adding a relationship and removing it again restores the tree", "statement": "addRelationship groups exactly the child features of the given feature below one new relationship, removeRelationship undoes this, and neither changes which features are (transitively) children of which feature, nor touches any other feature.", "quantifier": "every well-formed model and group parent", "why_tests_cant": "All tree shapes, in particular existing relationships at the feature or below it.", "anchors": ["include/vara/Feature/FeatureModelTransaction.h: AddRelationshipToModel, RemoveRelationshipFromModel", "include/vara/Feature/FeatureTreeNode.h: getChildren"]}
{"id": "C24", "title": "No constraint refers to a removed feature", "statement": "After removing a feature, no constraint of the model refers to it.", "quantifier": "every model, constraint set and removal sequence", "why_tests_cant": "Dangling references are silent until used; histories are unbounded.", "anchors": ["include/vara/Feature/FeatureModelTransaction.h: RemoveFeatureFromModel", "lib/Feature/FeatureModel.cpp: FeatureModel::removeFeature"]}
{"id": "C25", "title": "Iterating a model visits every feature once, parents first, siblings alphabetically", "statement": "Iterating over a well-formed feature model visits every feature of the model exactly once, every feature after its parent, and is the preorder traversal with siblings ordered by case-insensitive name; the order does not depend on insertion order or memory layout when sibling names are distinct ignoring case.", "quantifier": "every feature tree of any shape", "why_tests_cant": "Unbounded trees and all child-set orders (pointer-hash order varies between runs).", "anchors": ["lib/Feature/FeatureModel.cpp: FeatureModel::DFSIterator", "include/vara/Feature/FeatureModel.h: begin, end"]}
{"id": "C26", "title": "Feature comparison is a strict order that agrees with iteration", "statement": "For the features of a well-formed model operator< is a strict weak order (and total when sibling names differ ignoring case), and F < G exactly when F is visited before G by iteration.", "quantifier": "all pairs and triples of features in every tree", "why_tests_cant": "Order laws over all triples in all trees.", "anchors": ["lib/Feature/Feature.cpp: Feature::operator<", "include/vara/Feature/Feature.h: Feature::operator=="]}
{"id": "C27", "title": "The ordered feature vector stays sorted", "statement": "After any sequence of insertions the ordered feature vector contains exactly the inserted features in an order sorted by operator<, equal elements in insertion order; remove deletes all occurrences and keeps the order.", "quantifier": "every insertion/removal sequence", "why_tests_cant": "Unbounded histories.", "anchors": ["lib/Feature/OrderedFeatureVector.cpp: OrderedFeatureVector::insert", "include/vara/Feature/OrderedFeatureVector.h"]}
{"id": "C28", "title": "Building a model from features and edges gives that tree", "statement": "For every set of distinctly named features and parent assignment that forms a tree, FeatureModelBuilder returns a model with exactly these features and parents, independent of the order of the calls; when features or parents are missing, duplicated or ill-formed it returns null.", "quantifier": "every set of features, parent map and call order", "why_tests_cant": "All call orders and all trees.", "anchors": ["include/vara/Feature/FeatureModelBuilder.h", "lib/Feature/FeatureModelBuilder.cpp: buildFeatureModel"]}
{"id": "C29", "title": "Cloning a feature model gives an equal independent model", "statement": "clone() of a well-formed model has the same names, attributes, tree, groups and constraints as the original, and shares no object with it.", "quantifier": "every well-formed model", "why_tests_cant": "All models; attributes dropped by the copy are not compared by tests.", "anchors": ["lib/Feature/FeatureModel.cpp: FeatureModel::clone"]}
{"id": "C30", "title": "Merging feature models gives their union or null", "statement": "mergeFeatureModels returns null if some common feature conflicts, otherwise a model with exactly the features of both inputs, the parents given by the inputs and the union of locations; the inputs are unchanged. It never crashes on two valid models.", "quantifier": "every pair of well-formed models, strict and non-strict", "why_tests_cant": "All pairs of models.", "anchors": ["lib/Feature/FeatureModelTransaction.cpp: mergeFeatureModels, mergeSubtree, compareProperties, featureCopy"]}
{"id": "C31", "title": "Bulk removal terminates and reports exactly what it did not delete", "statement": "removeFeatures terminates for every list, and every feature of the list is afterwards either gone from the model or in the returned list.", "quantifier": "every model, every list (with duplicates, missing names, ancestors and descendants)", "why_tests_cant": "All list permutations and overlaps.", "anchors": ["lib/Feature/FeatureModelTransaction.cpp: removeFeatures, canBeDeletedRecursively"]}
{"id": "C32", "title": "Written XML conforms to the DTD", "statement": "Every XML document the writer produces is accepted by the project's own DTD: elements present, in the declared order and multiplicity, with required attributes.", "quantifier": "every feature model", "why_tests_cant": "All models; element order depends on which optional parts are present.", "anchors": ["lib/Feature/FeatureModelWriter.cpp", "lib/Feature/XmlConstants.h: DtdConstants"]}
{"id": "C33", "title": "Writing then parsing a model gives the model back", "statement": "Parsing the XML written for a model gives a model with the same features, attributes, tree, groups, constraints and locations.", "quantifier": "every feature model", "why_tests_cant": "All models; lossy cases are specific attribute combinations (or-groups, wide values, step functions).", "anchors": ["lib/Feature/FeatureModelWriter.cpp: FeatureModelXmlWriter", "lib/Feature/FeatureModelParser.cpp: FeatureModelXmlParser"]}
{"id": "C34", "title": "Alternative groups are detected exactly", "statement": "After parsing XML, a feature's children form an alternative group exactly when there are at least two of them, none is optional and each excludes each other one; all other features keep their direct children.", "quantifier": "every set of children and exclude constraints", "why_tests_cant": "All sizes of groups and all subsets of exclude pairs.", "anchors": ["lib/Feature/FeatureModelParser.cpp: FeatureModelParser::detectXMLAlternatives"]}
{"id": "C35", "title": "SXFM cardinalities and group semantics are read as documented", "statement": "The SXFM parser accepts exactly the group cardinalities [1,1] and [1,*], maps them to alternative and or groups, and rejects all others.", "quantifier": "every line text", "why_tests_cant": "All strings.", "anchors": ["lib/Feature/FeatureModelParser.cpp: FeatureModelSxfmParser::extractCardinality"]}
{"id": "C36", "title": "Parsing SXFM constraints terminates and renames exactly the identifiers", "statement": "For every accepted identifier table and every constraint text the parser terminates, and each feature identifier in the constraint is replaced by that feature's name.", "quantifier": "every identifier table and constraint text", "why_tests_cant": "Non-termination needs a specific overlap of identifier and name; tests use well-behaved names.", "anchors": ["lib/Feature/FeatureModelParser.cpp: FeatureModelSxfmParser::parseConstraints"]}
{"id": "C37", "title": "SXFM indentation gives the tree", "statement": "For every feature tree written with one indentation step per level, the SXFM parser reads back that tree; a line indented by more than one step below its predecessor is rejected.", "quantifier": "every tree", "why_tests_cant": "Unbounded trees/indentation sequences.", "anchors": ["lib/Feature/FeatureModelParser.cpp: FeatureModelSxfmParser::parseFeatureTree"]}
{"id": "C38", "title": "The solver accepts exactly the valid configurations of the model", "statement": "An assignment of the option variables satisfies the solver's assertions for a model if and only if it is a valid configuration: the root is selected, a selected feature's parent is selected, mandatory children of a selected feature are selected, groups obey their cardinality, numeric features have one of their values, and all constraints hold.", "quantifier": "every well-formed model and every assignment", "why_tests_cant": "Exponentially many assignments over unboundedly many models.", "anchors": ["lib/Solver/Z3Solver.cpp: addFeature, addRelationship, addConstraint, SolverConstraintVisitor", "lib/Solver/SolverFactory.cpp: applyModelOnSolver"]}
{"id": "C39", "title": "Exclusive-or constraints require exactly one side", "statement": "A constraint 'A xor B' is satisfied exactly when one side holds.", "quantifier": "every pair of operand expressions", "why_tests_cant": "The case both-false is one of four per constraint and xor cannot be written in text, so tests miss it.", "anchors": ["lib/Solver/Z3Solver.cpp: SolverConstraintVisitor::visit(BinaryConstraint), CK_XOR"]}
{"id": "C40", "title": "Enumerating configurations yields every valid configuration exactly once", "statement": "Repeatedly asking for the next configuration yields pairwise different valid configurations, and stops with UNSAT exactly after all valid configurations were produced.", "quantifier": "every satisfiable or unsatisfiable model, every solver behaviour consistent with soundness and completeness", "why_tests_cant": "The solver may return models in any order; the number of configurations is exponential.", "anchors": ["lib/Solver/Z3Solver.cpp: getNextConfiguration, excludeCurrentConfiguration, getCurrentConfiguration", "include/vara/Solver/ConfigurationFactory.h: getAllConfigs"]}
{"id": "C41", "title": "Asking for N configurations returns min(N, all) different ones", "statement": "getNConfigs(N) returns exactly min(N, number of valid configurations) pairwise different valid configurations.", "quantifier": "every model and every N", "why_tests_cant": "All N and all model sizes.", "anchors": ["include/vara/Solver/ConfigurationFactory.h: getNConfigs, ConfigurationIterator"]}
{"id": "C42", "title": "isValid tells whether a valid configuration exists", "statement": "ConfigurationFactory::isValid(M) is true exactly when M has at least one valid configuration.", "quantifier": "every model", "why_tests_cant": "Needs unsatisfiable models; the tests only use a satisfiable one.", "anchors": ["include/vara/Solver/ConfigurationFactory.h: isValid", "include/vara/Utils/Result.h: Result::operator bool"]}
{"id": "C43", "title": "Mixed constraints follow their requirement and polarity", "statement": "A mixed constraint with requirement 'all' is only required when all its boolean features are selected, with 'none' it is always required with 0/1 in place of boolean features, and negative polarity requires the negation.", "quantifier": "every arithmetic/boolean expression and assignment", "why_tests_cant": "All expressions and assignments.", "anchors": ["lib/Solver/Z3Solver.cpp: addMixedConstraint, SolverConstraintVisitor"]}
{"id": "C44", "title": "Numeric ranges are enumerated exactly and terminate", "statement": "For a numeric feature with a range and a step function the solver's value set is the orbit of the minimum under the step function up to the maximum, and computing it terminates.", "quantifier": "every range and step function", "why_tests_cant": "All ranges and step functions, including non-increasing steps.", "anchors": ["lib/Solver/Z3Solver.cpp: addFeature (numeric)", "include/vara/Feature/StepFunction.h"]}
{"id": "C45", "title": "Features enter the solver parents-first and at most once", "statement": "Loading a well-formed model into the solver never reports a missing parent or a duplicate; adding a feature twice or before its parent is reported and changes nothing.", "quantifier": "every model and every order of addFeature calls", "why_tests_cant": "All call orders.", "anchors": ["lib/Solver/Z3Solver.cpp: addFeature", "lib/Solver/SolverFactory.cpp: applyModelOnSolver"]}
{"id": "C46", "title": "Sample sets keep all configurations and report exactly the active options", "statement": "Parsing a sample CSV yields one configuration per row with one option per column that names a feature; writing a sample set lists for each configuration exactly the output strings of its selected features, in model order.", "quantifier": "every table and every configuration list", "why_tests_cant": "All tables and sizes (ordering of more than ten configurations differs from numeric order).", "anchors": ["lib/Sampling/SampleSetParser.cpp", "lib/Sampling/SampleSetWriter.cpp"]}
{"id": "C47", "title": "Children queries return the nearest descendants of the asked kind", "statement": "getChildren<T>() returns exactly the descendants of kind T that are reached without passing through another node of kind T; with a depth limit only those within that many levels; getParentFeature() returns the nearest feature ancestor.", "quantifier": "every tree and depth", "why_tests_cant": "All trees and depths.", "anchors": ["include/vara/Feature/FeatureTreeNode.h: getChildren", "lib/Feature/Feature.cpp: Feature::getParentFeature"]}
{"id": "C48", "title": "Line and column numbers are narrowed without changing their sign", "statement": "Converting an unsigned 64-bit counter to int gives the same value when it fits and the largest int otherwise; it is monotone and never negative.", "quantifier": "every unsigned value", "why_tests_cant": "All 2^64 values.", "anchors": ["include/vara/Utils/VariantUtil.h: checkedNarrowingSignConversion"]}
{"id": "C49", "title": "Asking the constraint builder for its result does not change it", "statement": "Calling build() any number of times, also between other calls, returns what a fresh builder with the same calls returns and does not influence the result of later calls.", "quantifier": "every call history with build() at any positions", "why_tests_cant": "All call histories and all interleavings of build().", "anchors": ["include/vara/Feature/ConstraintBuilder.h: ConstraintBuilder::build"]}
{"id": "C50", "title": "A modify transaction takes effect at most once", "statement": "After the first commit of a modify transaction, whether it succeeded or failed, no later call on the transaction changes the model and every later commit returns ABORTED; a transaction that is destroyed without commit or abort has the effect of a commit.", "quantifier": "every model, list of modifications and list of later calls", "why_tests_cant": "All sequences of calls, all models and all points of failure.", "anchors": ["include/vara/Feature/FeatureModelTransaction.h: FeatureModelModifyTransactionBase::commitImpl, abortImpl, ~FeatureModelTransaction"]}
{"id": "C51", "title": "Adding or removing a location changes only the locations of that feature", "statement": "addLocation appends the location to the locations of the feature; removeLocation removes the first location equal to the given one and reports an error when there is none; nothing else of the model changes.", "quantifier": "every model, feature and location", "why_tests_cant": "All location lists, with duplicates at every position, and all models around the feature.", "anchors": ["include/vara/Feature/FeatureModelTransaction.h: AddLocationToFeatureModel, RemoveLocationFromFeatureModel", "include/vara/Feature/Feature.h: addLocation, removeLocation"]}
{"id": "C52", "title": "Setting the root puts a new root on top of the same tree", "statement": "setRoot(name) with an unused name replaces the root by a root feature of that name which has the children of the old root in their order; the old root is gone and nothing else changes. With the name of the root nothing happens; with the name of another feature it returns ALREADY_PRESENT and nothing happens.", "quantifier": "every well-formed model and name", "why_tests_cant": "All trees below the root, with features and groups as children.", "anchors": ["include/vara/Feature/FeatureModelTransaction.h: FeatureModelModification::setRoot, SetRoot"]}
{"id": "C53", "title": "Numeric options of enumerated configurations read back as their number", "statement": "In a configuration produced by the solver the option of a numeric feature holds the integer value of the feature and the option of a Boolean feature its truth value.", "quantifier": "every model, every produced configuration, every feature and value", "why_tests_cant": "The values are written by Z3 and read again by the configuration; tests use a few non-negative values, negative ones are printed as \"(- 5)\" and read as text.", "anchors": ["lib/Solver/Z3Solver.cpp: getCurrentConfiguration", "include/vara/Configuration/Configuration.h: ConfigurationOption::convert"]}
{"id": "C54", "title": "getNumConfigs returns the number of valid configurations", "statement": "ConfigurationFactory::getNumConfigs(M) returns the number of valid configurations of M, also when there are none.", "quantifier": "every model", "why_tests_cant": "The number comes from a complete enumeration by an external solver; tests can only compare a few small models.", "anchors": ["include/vara/Solver/ConfigurationFactory.h: ConfigurationFactory::getNumConfigs"]}
{"id": "C55", "title": "The SXFM parser never crashes on a document its DTD admits", "statement": "For every document that conforms to the SXFM DTD, loading returns a model or null: no undefined behaviour, failed assertion or uncaught exception.", "quantifier": "every document that conforms to the DTD", "why_tests_cant": "All texts of the feature tree and of the constraints; a crash needs one particular shape of line.", "anchors": ["lib/Feature/FeatureModelParser.cpp: FeatureModelSxfmParser::parseVm, parseFeatureTree, parseConstraints", "lib/Feature/SxfmConstants.h: DtdRaw"]}
{"id": "C56", "title": "No SXFM constraint is lost", "statement": "If an SXFM document is loaded, then every non-blank line of its constraints is a constraint of the model, in the order of the lines, and the model has no other constraints.", "quantifier": "every document that is loaded", "why_tests_cant": "All constraint texts and identifier tables.", "anchors": ["lib/Feature/FeatureModelParser.cpp: FeatureModelSxfmParser::parseConstraints"]}
{"id": "C57", "title": "XML documents are read as what they say", "statement": "Loading an XML document whose options form one tree gives a model with exactly the options as features, each with the attributes, parent and source locations the document states, the constraints in document order with their kind, and the name, path and commit of the document.", "quantifier": "every document that describes a tree; every text, number of options, order and combination of optional elements", "why_tests_cant": "All documents; the optional elements can be combined in any way and texts are unbounded.", "anchors": ["lib/Feature/FeatureModelParser.cpp: FeatureModelXmlParser::parseVm, parseOptions, parseConfigurationOption, parseConstraints, createFeatureSourceRange, buildFeatureModel"]}
{"id": "C58", "title": "XML documents that describe no tree are rejected", "statement": "A document in which a feature has two parents, two options have one name, a parent or child is no option, options are their own ancestors, or a constraint mentions an unknown feature, gives null and not a model.", "quantifier": "every such document", "why_tests_cant": "All documents with a defect anywhere in them, in any order of the options.", "anchors": ["lib/Feature/FeatureModelParser.cpp: FeatureModelXmlParser::parseConfigurationOption", "lib/Feature/FeatureModelBuilder.cpp: FeatureModelBuilder::buildFeatureModel"]}
{"id": "C59", "title": "The XML parser never crashes on a document its DTD admits", "statement": "For every document that conforms to the DTD, loading returns a model or null: no undefined behaviour, failed assertion or uncaught exception.", "quantifier": "every document that conforms to the DTD", "why_tests_cant": "All documents; a crash needs one particular missing attribute, empty text or out-of-range number.", "anchors": ["lib/Feature/FeatureModelParser.cpp: FeatureModelXmlParser", "lib/Feature/XmlConstants.h: DtdConstants"]}
{"id": "C60", "title": "The graph of a model shows exactly its tree", "statement": "Writing the graph of a consistent feature model emits properly nested blocks in which every feature and every relationship appears exactly once, inside the clusters of all its ancestors, with the shape and label that belong to it (features: name, output string, every constraint they take part in, every location), and in which every parent link appears exactly once with an arrow head that shows whether the child is optional, mandatory or a group. Title and name of the graph are complete quoted strings for any title and name.", "quantifier": "for every consistent feature model, every title and every way of printing addresses", "why_tests_cant": "The graph is produced by a recursion over trees of any depth and width; tests only check one output against a stored file, if at all.", "anchors": ["include/vara/Feature/FeatureModel.h:GraphWriter<FeatureModel *>", "FeatureModel.h:emitCluster", "FeatureModel.h:buildFeatureLabel", "FeatureModel.h:writeHeader"]}
{"id": "C61", "title": "Labels in the graph are readable and show names and constraints as they are", "statement": "Read as an HTML-like label, the text shown for a feature name, an output string and a constraint is the name, the output string and the printed constraint; in particular the HTML form of a constraint (`toHTML`) is always well-formed and reads as `toString`.", "quantifier": "for every constraint, name and output string", "why_tests_cant": "Constraints nest arbitrarily and names are arbitrary; tests call toHTML on single operators.", "anchors": ["include/vara/Feature/Constraint.h:toHTML", "include/vara/Feature/FeatureModel.h:buildFeatureLabel"]}
{"id": "C62", "title": "The text of a feature shows its position and values, and dump shows every feature", "statement": "The text of a feature shows its name, whether it is optional, its locations, its parent feature, all features whose parent it is, and its values, and determines them; dumping a model prints the text of every feature exactly once.", "quantifier": "for every consistent feature model and every feature of it", "why_tests_cant": "Tests compare the text of a few features without groups; that it is unambiguous and complete for all trees cannot be sampled.", "anchors": ["lib/Feature/Feature.cpp:Feature::toString", "lib/Feature/Feature.cpp:NumericFeature::toString", "lib/Feature/FeatureModel.cpp:FeatureModel::dump"]}
{"id": "C63", "title": "Layout of an XML document makes no difference", "statement": "Two XML documents that differ only in blanks around texts, between elements or next to signs in constraints, in option elements without visible text, in the declared elements that carry no meaning (prefix, postfix, default value), in the spelling of numbers (leading zeros, a plus sign before a line, other separators between values) or in the word that is not `True` in `optional` are loaded as the same model, or both rejected.", "quantifier": "every pair of documents that differ in layout and spelling only", "why_tests_cant": "All documents and all places where blanks can stand; each element is trimmed by its own code.", "anchors": ["lib/Feature/FeatureModelParser.cpp: FeatureModelXmlParser::parseConfigurationOption, parseConstraints, parseVm, createFeatureSourceRange, createFeatureRevisionRange, createFeatureSourceLocation", "lib/Feature/FeatureModelParser.cpp: trim"]}
{"id": "C64", "title": "The configuration generator writes exactly the valid configurations", "statement": "Run on a file that describes a feature model, the configuration generator writes one numbered entry for every valid configuration of that model, listing the output strings of the selected features with the values of numbers in decimal, and nothing else; run with a sample set it writes one entry per row. A run that ends with an error writes nothing, and no run changes a file other than the output file.", "quantifier": "for every feature model file, every sample set, all contents of the other files and every answer of the solver", "why_tests_cant": "There is no test of the tool; it composes reading, building, group detection, the solver and the writer, and the set of all configurations of all models cannot be sampled.", "anchors": ["tools/config-generator/ConfigurationGenerator.cpp: main", "lib/Feature/FeatureModel.cpp: loadFeatureModel, verifyFeatureModel", "lib/Sampling/SampleSetWriter.cpp: SampleSetWriter::writeConfigurations", "include/vara/Solver/ConfigurationFactory.h: ConfigurationFactory::getAllConfigs"]}
{"id": "C65", "title": "The viewer shows the model of its file and touches nothing else", "statement": "Run on a file that describes a feature model, the viewer prints every feature once with --dump, writes the drawing of the model to the output file with -o, and otherwise starts a program on a fresh drawing; with --verify it only checks the file and ends. It ends with an error if and only if there is nothing it could show or write, and changes no file but the one it writes.", "quantifier": "for every file, all options and all contents of the other files", "why_tests_cant": "There is no test of the tool, and its effects depend on the combination of four options, the file and the state of the file system.", "anchors": ["tools/fm-viewer/FeatureModelViewer.cpp: main", "lib/Feature/FeatureModel.cpp: loadFeatureModel, verifyFeatureModel, FeatureModel::view", "include/vara/Feature/FeatureModel.h: FeatureModel::dump"]}
{"id": "C66", "title": "Features of a model are equal only to themselves, and equality agrees with hash and order", "statement": "Equality of features is an equivalence that agrees with their hashes; two features of one model are equal exactly if they are the same feature, and exactly one of a < b, b < a and a == b holds.", "quantifier": "for every well-formed model and all its features", "why_tests_cant": "The order depends on the whole tree and the equality on names, so whether they agree can only be settled for all trees and names.", "anchors": ["include/vara/Feature/Feature.h: Feature::operator==, Feature::operator<, Feature::hash", "lib/Feature/Feature.cpp: Feature::operator<"]}
{"id": "C67", "title": "Updating a location replaces that location and nothing else", "statement": "updateLocation replaces the given location of a feature by the new one at the same place and returns true; if the feature does not have the location it returns false; nothing else about the feature or the model changes, and updating back restores the feature.", "quantifier": "for every model, feature and pair of locations", "why_tests_cant": "Tests update one location of a list of one; which entry is found depends on the whole list and on what equality of locations compares.", "anchors": ["include/vara/Feature/Feature.h: Feature::updateLocation", "include/vara/Feature/FeatureSourceRange.h: FeatureSourceRange::operator=="]}
{"id": "C68", "title": "A builder builds once", "statement": "What a FeatureModelBuilder builds is determined by the calls made before buildFeatureModel, and getParentName names the parent a feature will have. After buildFeatureModel the builder is used up: whatever is called on it is harmless, returns no other model, and does not change the model that was returned.", "quantifier": "for every sequence of calls on a builder, before and after building", "why_tests_cant": "Tests build once and stop; what a used builder does depends on the state of its three transactions and on all later calls.", "anchors": ["lib/Feature/FeatureModelBuilder.cpp: FeatureModelBuilder::buildFeatureModel", "include/vara/Feature/FeatureModelBuilder.h: FeatureModelBuilder", "include/vara/Feature/FeatureModelTransaction.h: FeatureModelModifyTransactionBase::commitImpl"]}
{"id": "C69", "title": "A Python program gets the model it asks for", "statement": "A Python program that makes features, edges, groups and constraints with the bound FeatureModelBuilder and builds gets the model it describes, with each feature optional or mandatory as asked; a group of an unknown kind is an error.", "quantifier": "for every sequence of calls that describes a tree", "why_tests_cant": "The Python tests make a few models; that each argument reaches the library can only be settled for all arguments.", "anchors": ["bindings/python/vara-feature/pybind_FeatureModelBuilder.cpp: init_feature_model_builder_module", "lib/Feature/FeatureModelBuilder.cpp: FeatureModelBuilder::buildFeatureModel"]}
{"id": "C70", "title": "Adding several features adds all of them or none", "statement": "addFeatures adds each given feature as a leaf below its parent, or below the root if it has none, and changes nothing else; if one of them cannot be added none is, and the caller learns of it.", "quantifier": "for every well-formed model and every list of new features with parents of the model", "why_tests_cant": "A test adds a list that fits; the effect of a list that fails in the middle depends on the position of the failure and the whole list.", "anchors": ["lib/Feature/FeatureModelTransaction.cpp: addFeatures", "include/vara/Feature/FeatureModelTransaction.h: AddFeatureToModel"]}
{"id": "C71", "title": "The configurations of an SXFM document are those its tree and clauses permit", "statement": "Loading an SXFM document and listing the configurations of the model gives exactly the selections of features in which the root is selected, every selected feature has a selected parent, mandatory features and groups below a selected feature are selected, selected groups have as many selected members as their cardinality says, and each clause has a true literal; each selection once.", "quantifier": "for every document with a tree of any shape and clauses of any length over its features, and every solver that answers correctly", "why_tests_cant": "The parser's tests compare the shape of one tree and never hand the model to the solver; the set of selections grows exponentially with the document.", "anchors": ["lib/Feature/FeatureModelParser.cpp: FeatureModelSxfmParser", "include/vara/Feature/ConstraintParser.h: ConstraintLexer, ConstraintParser", "lib/Solver/Z3Solver.cpp: Z3SolverConstraintVisitor", "include/vara/Solver/ConfigurationFactory.h: getAllConfigs"]}
{"id": "C72", "title": "Writing a model and reading it again keeps its valid configurations", "statement": "When a feature model is written as XML and the document is loaded, the loaded model has exactly the valid configurations of the original, and listing all configurations of both gives the same configurations.", "quantifier": "for every feature model that can be written, every assignment of its features, every order of the hash maps and every solver that answers correctly", "why_tests_cant": "The writer's tests compare documents or single attributes; whether two models have the same configurations is a statement about all assignments of all features.", "anchors": ["lib/Feature/FeatureModelWriter.cpp: FeatureModelXmlWriter", "lib/Feature/FeatureModelParser.cpp: FeatureModelXmlParser::detectXMLAlternatives", "lib/Solver/Z3Solver.cpp: Z3Solver::addFeature", "include/vara/Solver/ConfigurationFactory.h: getAllConfigs"]}
{"id": "C73", "title": "A clone has the valid configurations of the original", "statement": "The clone of a feature model has exactly the valid configurations of the original, and listing all configurations of both gives the same configurations.", "quantifier": "for every feature model, every assignment of its features, every order of the hash maps and every solver that answers correctly", "why_tests_cant": "The tests of clone look for a few features by name; whether two models have the same configurations is a statement about all assignments of all features.", "anchors": ["lib/Feature/FeatureModel.cpp: FeatureModel::clone", "lib/Solver/Z3Solver.cpp: Z3Solver::addFeature", "include/vara/Solver/ConfigurationFactory.h: getAllConfigs"]}
{"id": "C74", "title": "A failed write is reported", "statement": "Writing a feature model to a file returns a negative number exactly if the file could not be opened or a call to the XML library failed; otherwise all calls for the complete document were made and succeeded. Asking for the document as text returns nothing exactly if something failed.", "quantifier": "for every feature model that can be written and every way in which the calls to the XML library may fail", "why_tests_cant": "The tests write to memory with a library that never fails; failures can happen at any of arbitrarily many calls.", "anchors": ["lib/Feature/FeatureModelWriter.cpp: FeatureModelXmlWriter", "lib/Feature/FeatureModelWriter.cpp: CHECK_RC", "bindings/python/vara-feature/pybind_FeatureModelXmlWriter.cpp: init_xml_writer"]}
{"id": "C75", "title": "Verifying a file tells whether it loads", "statement": "verifyFeatureModel returns true for a file exactly if loadFeatureModel gives a feature model for it.", "quantifier": "for every file and every XML library that reads a text as some element and validates it against the DTD", "why_tests_cant": "The tests verify a few example files; agreement of two functions is a statement about all files.", "anchors": ["lib/Feature/FeatureModel.cpp: verifyFeatureModel", "lib/Feature/FeatureModel.cpp: loadFeatureModel", "lib/Feature/FeatureModelParser.cpp: FeatureModelXmlParser::verifyFeatureModel", "bindings/python/vara-feature/pybind_FeatureModel.cpp: init_feature_model_module"]}
{"id": "C76", "title": "Adding a constraint keeps exactly the configurations that satisfy it", "statement": "After a transaction adds a Boolean, non-Boolean or mixed constraint over features of the model, the valid configurations are exactly those that were valid before and satisfy the constraint; the solver's getAllConfigs lists exactly those.", "quantifier": "for every well-formed model, every constraint of every kind and every configuration", "why_tests_cant": "The tests add a constraint and look at the stored text; which of the exponentially many configurations stay valid is a statement about all models and constraints.", "anchors": ["include/vara/Feature/FeatureModelTransaction.h: AddConstraintToModel", "include/vara/Solver/Z3Solver.h: addConstraint", "include/vara/Configuration/Configuration.h: ConfigurationFactory"]}
{"id": "C77", "title": "Adding a feature only adds the choice of that feature", "statement": "After a transaction adds a feature with a new name below a feature, a configuration is valid exactly if it was valid before and the new feature is selected only with its parent, selected with it if mandatory, and has one of its values if numeric.", "quantifier": "for every well-formed model, new feature of any kind, parent and configuration", "why_tests_cant": "The tests add a feature to one small tree and look at the tree.", "anchors": ["include/vara/Feature/FeatureModelTransaction.h: AddFeatureToModel", "include/vara/Solver/Z3Solver.h: addFeature"]}
{"id": "C78", "title": "Removing a feature only removes its choices", "statement": "After a transaction removes a feature that no constraint mentions, with everything below it, the valid configurations are those from before without the removed features; if the feature was a member of a group, those from before in which it was not selected.", "quantifier": "for every well-formed model, feature and configuration", "why_tests_cant": "The tests remove features from small trees and look at the tree.", "anchors": ["include/vara/Feature/FeatureModelTransaction.h: RemoveFeatureFromModel", "lib/Feature/FeatureModel.cpp: FeatureModel::removeFeature"]}
{"id": "C79", "title": "Grouping features adds exactly the condition of the group", "statement": "After a transaction puts the children of a feature in an alternative (or) group, the valid configurations are those in which exactly one (at least one) child is selected if the feature is, the children being no longer mandatory; removing the group drops exactly that condition.", "quantifier": "for every well-formed model, feature, kind of group and configuration", "why_tests_cant": "The tests group the children of one feature and look at the tree.", "anchors": ["include/vara/Feature/FeatureModelTransaction.h: AddRelationshipToModel", "include/vara/Feature/FeatureModelTransaction.h: RemoveRelationshipFromModel", "lib/Solver/Z3Solver.cpp: Z3Solver::setFeature"]}
{"id": "C80", "title": "Changing metadata, locations or the root keeps the configurations", "statement": "Transactions that change the name, commit or path of a model or the locations of a feature keep the valid configurations; a new root takes over the role of the old one, nothing else changing.", "quantifier": "for every model, feature, location and configuration", "why_tests_cant": "The tests look at the changed field only.", "anchors": ["include/vara/Feature/FeatureModelTransaction.h: SetName", "include/vara/Feature/FeatureModelTransaction.h: SetCommit", "include/vara/Feature/FeatureModelTransaction.h: SetPath", "include/vara/Feature/FeatureModelTransaction.h: AddLocationToFeature", "include/vara/Feature/FeatureModelTransaction.h: RemoveLocationFromFeature", "include/vara/Feature/FeatureModelTransaction.h: SetRoot"]}
{"id": "C81", "title": "Moving a node only changes what ties it to its parent", "statement": "After a transaction moves a feature or a group from one parent to another, a configuration is valid exactly if it fulfils everything it had to before, except that the node (the members, if it is a group) is tied to the new parent instead of the old one: selected only with it, selected with it if mandatory and not in a group, and a member of the new parent instead of the old one where these are groups.", "quantifier": "for every well-formed model, node other than the root, new parent (feature or group) outside its subtree and configuration", "why_tests_cant": "The tests move one feature in one tree and look at the tree.", "anchors": ["include/vara/Feature/FeatureModelTransaction.h: AddChild"]}
{"id": "C82", "title": "Python programs that edit a model get the tree they describe", "statement": "After a Python program has called add_binary_feature, add_numeric_feature, remove_feature and set commit in any order, looking features up by name, the model contains exactly the features added or there before and not removed, each with the given properties below the given parent (removing recursively removes what is below); constraints, root, name and path are unchanged; and a call that cannot be carried out raises an exception and changes nothing.", "quantifier": "for every well-formed model, every program (list of statements) and every environment", "why_tests_cant": "The tests call single functions on one small model; a claim about all programs needs a description of the model that each statement is shown to keep up to date.", "anchors": ["bindings/python/vara-feature/pybind_FeatureModel.cpp: add_binary_feature, add_numeric_feature, remove_feature, commit", "lib/Feature/FeatureModelTransaction.cpp: addFeature, removeFeature, setCommit"]}
{"id": "C83", "title": "A script of transactions ends with the model its modifications describe, and so it does after saving and loading", "statement": "A program opens modify transactions one after the other, fills each with modifications that name their features (adding, removing, moving, grouping, locating features, constraints, name, path, commit, root) and commits it. If each modification makes sense where it stands, every commit succeeds and the final model is the one obtained by applying what the modifications say to the initial one, its valid configurations included. If the model was loaded from an XML document and the result is saved and loaded again, the same model comes back.", "quantifier": "for every model with a description, every script of any length and every environment; for every document in the form of the DTD", "why_tests_cant": "The tests commit one or two modifications on a fixed model and look at single features; how modifications interact over a whole script, and with saving and loading, is a statement about all scripts and models.", "anchors": ["include/vara/Feature/FeatureModelTransaction.h: FeatureModelTransaction, FeatureModelModifyTransactionBase", "lib/Feature/FeatureModelWriter.cpp: FeatureModelXmlWriter", "lib/Feature/FeatureModelParser.cpp: FeatureModelXmlParser"]}
{"id": "C84", "title": "A range with a step has the values its text promises", "statement": "A numeric feature with a range and the step `x + k`, `x * k`, `x ^ k` or `k ^ x` (or with the operands of the first two exchanged) can take, in the solver, exactly the values one gets from the minimum by adding, multiplying or raising repeatedly, up to the maximum; enumerating the range ends and overflows nowhere. The arithmetic is that of the code: the value is converted to a double, the operation is rounded, the result is truncated to 64 bits.", "quantifier": "for every minimum, maximum and decimal constant, every spelling of the step text and every layout of it", "why_tests_cant": "Tests step through short ranges with small integer steps; rounding, truncation and overflow show only for particular constants and bounds among all.", "anchors": ["include/vara/Feature/StepFunction.h: StepFunction::next", "include/vara/Feature/StepFunctionParser.h: StepFunctionParser", "lib/Solver/Z3Solver.cpp: Z3Solver::addFeature (loop over the range)"]}
{"id": "C85", "title": "A result says the same after it was copied or moved", "statement": "A Result that is moved, returned or copied any number of times reports success or failure as the original did, with the same value or error code. The same holds for an Ok or Error a result is made from.", "quantifier": "for every type of values and error codes, every content and every sequence of moves and copies, of variables, constants and temporaries", "why_tests_cant": "Which constructor a copy uses depends on the value type and on whether the source is constant; tests instantiate the templates for few types and mostly with temporaries.", "anchors": ["include/vara/Utils/Result.h: Ok, Error, Result", "include/vara/Solver/Error.h: Error<SolverErrorCode>", "include/vara/Feature/Error.h: Error<FTErrorCode>"]}
{"id": "C86", "title": "A printed step function reads back as the same function", "statement": "StepFunction::toString of a function of a variable and a constant gives a text from which StepFunctionParser builds the same function: same variable, operator, order of operands and constant.", "quantifier": "for every variable name, operator, order of the operands and double constant", "why_tests_cant": "Whether a constant survives depends on how the decimal text with two digits rounds to a double; tests print a few short constants out of 2^64.", "anchors": ["include/vara/Feature/StepFunction.h: StepFunction::toString", "include/vara/Feature/StepFunctionParser.h: StepFunctionParser::buildStepFunction"]}
{"id": "C87", "title": "The ranges of a document are stepped through as written", "statement": "If a document gives a numeric option a range and a step function x + k or x * k, the configurations generated from the document are those in which the option has the values lo, lo + k, lo + 2k, ... or lo, lo * k, lo * k^2, ... up to the maximum, one entry for each configuration.", "quantifier": "for every document, range and step, every answer of the SMT solver that is not 'unknown'", "why_tests_cant": "It takes the XML parser, the step parser, double arithmetic, the loop of the solver and the enumeration together; tests check one range with a small step, and not the ranges on which the loop does not end.", "anchors": ["tools/config-generator/ConfigurationGenerator.cpp: main", "lib/Feature/FeatureModelParser.cpp: FeatureModelXmlParser::parseConfigurationOption", "lib/Solver/Z3Solver.cpp: Z3Solver::addFeature", "include/vara/Feature/StepFunctionParser.h: StepFunctionParser::buildStepFunction"]}
{"id": "C88", "title": "A solver can be asked call by call, and configurations taken lazily", "statement": "Whatever sequence of getNextConfiguration, getCurrentConfiguration, hasValidConfigurations and addConstraint is called on a solver that holds a feature model: the next configuration is valid, satisfies the constraints added meanwhile and differs from all configurations given before; UNSAT is returned exactly if no such configuration is left; the current configuration is the one given last; whether there are valid configurations is answered as long as none has been given. Lazy iterators and their copies show the same sequence, one configuration for each increment, and a loop over an iterable can be repeated.", "quantifier": "for every well-formed model that can be loaded, every sequence of calls, any number of iterators, every SMT solver that does not answer 'unknown'", "why_tests_cant": "The tests run one loop from the beginning; the state shared by the solver and its iterators matters only for other orders of calls.", "anchors": ["include/vara/Solver/ConfigurationFactory.h: ConfigurationIterable", "include/vara/Solver/Solver.h: Solver", "lib/Solver/Z3Solver.cpp: Z3Solver::getNextConfiguration, Z3Solver::getCurrentConfiguration, Z3Solver::hasValidConfigurations, Z3Solver::excludeCurrentConfiguration, Z3Solver::addConstraint"]}
{"id": "C89", "title": "A model can be edited while iterating over it", "statement": "A loop over the features of a model whose body edits the model visits no feature twice, visits every feature of the model that is not removed meanwhile, and visits a feature added meanwhile exactly if its parent is visited in the same round or later. It ends if only finitely many features are added. Removing features in the loop, also the one being visited, is allowed.", "quantifier": "for every well-formed model, every body that keeps a tree and the parents of features, every number of rounds", "why_tests_cant": "The tests iterate over models that stay as they are; which features an iterator has in store when the model changes depends on the moment, the shape and the names.", "anchors": ["include/vara/Feature/FeatureModel.h: FeatureModel::DFSIterator, FeatureModel::begin, FeatureModel::end", "bindings/python/vara-feature/pybind_FeatureModel.cpp: FeatureModel.__iter__, add_binary_feature, remove_feature"]}
{"id": "C90", "title": "Location objects held in Python keep denoting their location", "statement": "A location object obtained from feature.locations denotes this location for as long as the feature has it: reading a property shows what the location holds, assigning changes it in the feature, and neither is affected by adding, updating or removing other locations. Loops over the locations may add and remove locations.", "quantifier": "for every list of locations, every capacity of the vector and rule for its growth, every sequence of calls", "why_tests_cant": "The tests read locations immediately after obtaining them; whether an object held longer is still valid depends on the capacity of the vector and the order of all calls since.", "anchors": ["bindings/python/vara-feature/pybind_Feature.cpp: Feature.locations, add_location, update_location, remove_location", "bindings/python/vara-feature/pybind_FeatureSourceRange.cpp: Location.path, start, end, category, LineColumnOffset.line_number, column_offset", "include/vara/Feature/Feature.h: Feature::addLocation, updateLocation, removeLocation, getLocationsBegin, getLocationsEnd"]}
{"id": "C91", "title": "The text of a location determines it, and offsets show the numbers they were made with", "statement": "Two locations with the same text (str(location)) are equal. A LineColumnOffset shows the numbers it was made with or last assigned, and every number that cannot be represented is refused.", "quantifier": "for all pairs of locations and all Python integers", "why_tests_cant": "Tests compare texts of a few locations; ambiguity depends on what paths contain, and conversions go wrong only outside of the usual numbers.", "anchors": ["include/vara/Feature/FeatureSourceRange.h: FeatureSourceRange::toString, FeatureSourceLocation::toString, FeatureMemberOffset::toString", "bindings/python/vara-feature/pybind_FeatureSourceRange.cpp: Location.__str__, LineColumnOffset.__init__, line_number, column_offset"]}
{"id": "C92", "title": "The tree read node by node is the tree of the model", "statement": "children(), parent(), is_child and is_parent of the nodes of a model agree with each other; going down by recursion through children() visits every node once and shows the same features as iterating over the model; going up through parent() ends at the root. parent() of a feature is its parent feature.", "quantifier": "for every well-formed model and every node", "why_tests_cant": "The tests ask for parents and children in a few small models without groups; that recursion ends and misses nothing is about all trees.", "anchors": ["bindings/python/vara-feature/pybind_Feature.cpp: FeatureTreeNode.children, __iter__, is_child, parent, is_parent", "include/vara/Feature/FeatureTreeNode.h: FeatureTreeNode::getParent, hasEdgeFrom, children, hasEdgeTo, isLeaf"]}
{"id": "C93", "title": "Constraint visitors visit every node exactly once", "statement": "accept with a visitor that overrides visits of leaves, or visits of inner nodes calling the default, visits every node of the constraint exactly once, operators before operands and left to right, without stopping at a visit that returns false, and returns whether all visits of leaves returned true.", "quantifier": "for every constraint, every visitor and every state it starts in", "why_tests_cant": "The tests use the two visitors of the library on a few constraints.", "anchors": ["include/vara/Feature/Constraint.h: ConstraintVisitor", "lib/Feature/Constraint.cpp: accept", "include/vara/Feature/FeatureModelTransaction.h: AddConstraintToModel::AddConstraintToModelVisitor"]}
{"id": "C94", "title": "A solver filled by hand answers for exactly what it was given", "statement": "A solver that is given features (by name, by name with values, or as objects), groups, constraints and mixed constraints call by call, in any order and with requests in between, gives as configurations exactly the assignments to the features added so far that meet everything added so far, each once; adding a feature twice, a feature whose parent is missing, or a constraint about features that have not been added is an error that changes nothing.", "quantifier": "for every well-formed model whose features, groups and constraints are used, every sequence of calls, and every behaviour of Z3 that is right and never gives up", "why_tests_cant": "The tests add a handful of features and constraints in one order and look at one or two configurations; what can be asked in between, and that nothing is left out or invented, is about all sequences of calls.", "anchors": ["include/vara/Solver/Solver.h: Solver", "lib/Solver/Z3Solver.cpp: addFeature, removeFeature, addRelationship, addConstraint, addMixedConstraint, hasValidConfigurations, getNextConfiguration, getCurrentConfiguration"]}
{"id": "C95", "title": "Objects of a model held in Python stay usable", "statement": "A Python program that holds a feature, group, location, constraint or iterator it got from a feature model can use it as long as it holds it, whatever other variables it deletes and in whatever order: memory of a model is not freed while an object of it is held.", "quantifier": "for every program of loads, look-ups, iterations, calls on the results and deletions of variables", "why_tests_cant": "The tests keep the model in a variable for their whole run; which sequence of deletions frees what is about all programs, and a use of freed memory often goes unnoticed in a test.", "anchors": ["bindings/python/vara-feature/pybind_FeatureModel.cpp: get_root, get_feature, __iter__, booleanConstraints, nonBooleanConstraints, mixedConstraints, constraint", "bindings/python/vara-feature/pybind_Feature.cpp: children, __iter__, parent, locations"]}
{"id": "C96", "title": "Transactions open at the same time, and moved transactions", "statement": "Several modify transactions may be open on a model at once and their calls mixed in any order: what a transaction recorded is executed at its first commit or its destruction, on the model as it is then, and nothing else changes the model. A transaction may be moved to another variable and used there as if it had not been moved; the variable moved from can do no harm; no recorded modification gets lost.", "quantifier": "for every model, any number of transactions and every interleaving of their recordings, commits, aborts, moves, assignments and destructions", "why_tests_cant": "Each test has one transaction open at a time and never moves one; interleavings and moves are about all orders of calls.", "anchors": ["include/vara/Feature/FeatureModelTransaction.h: FeatureModelTransaction, FeatureModelTransaction::~FeatureModelTransaction, FeatureModelTransaction::openTransaction, FeatureModelModifyTransactionBase::commitImpl, FeatureModelModifyTransactionBase::abortImpl"]}
{"id": "C97", "title": "Models edited side by side do not influence each other", "statement": "A program may have any number of feature models at a time and build, load, clone, merge, edit and destroy them in any order. No operation on one model changes another: all of its features, relationships, constraints and links stay as they are, and each model is in the end what the operations on it alone make of it. A modification that is given a feature of a different model does not succeed.", "quantifier": "for every number of models on one heap, every operation on one of them (also failing ones) and every interleaving of operations", "why_tests_cant": "Each test works on one model, or on a model and its clone after one fixed edit; independence is about every pair of models and all orders of operations.", "anchors": ["include/vara/Feature/FeatureModel.h: FeatureModel, FeatureModel::clone", "lib/Feature/FeatureModel.cpp: FeatureModel::clone, FeatureModel::addFeature, FeatureModel::removeFeature", "lib/Feature/FeatureModelBuilder.cpp: FeatureModelBuilder::buildFeatureModel", "include/vara/Feature/FeatureModelTransaction.h: AddFeatureToModel, FeatureModelModifyTransactionBase::commitImpl, FeatureModelCopyTransactionBase::commitImpl"]}
{"id": "C98", "title": "Copy transactions keep to their own copy over their whole life", "statement": "Copy transactions may be open at the same time, on the same or different models, while those models are edited, cloned and destroyed. A call on one never changes the original, another model or the copy of another transaction; a successful commit gives out the copy exactly once, as the calls on this transaction alone made it from the model at the time of opening. A transaction that is over (committed, aborted or moved from) answers every further call with an error, and changes that were neither committed nor aborted are not lost silently.", "quantifier": "for every number of models and copy transactions on one heap, and every program of openings, calls with any pointers, commits, aborts, moves, assignments and destructions in any order", "why_tests_cant": "The tests open one copy transaction at a time and commit it at once; isolation and single delivery concern all interleavings and all orders of calls, also after the end of a transaction.", "anchors": ["include/vara/Feature/FeatureModelTransaction.h: FeatureModelTransaction (openTransaction, move operations, destructor), detail::FeatureModelCopyTransactionBase (commitImpl, abortImpl, isUncommitted, addFeatureImpl, removeFeatureImpl, setNameImpl, translateFeature)"]}
{"id": "C99", "title": "What transactions did can be undone by transactions, and every model can be reached", "statement": "Whatever a sequence of committed transactions did to a model, another sequence of transactions leads back to a model with the same name, commit, path, root, features with all attributes, parents, groups and constraints. From any model without constraints, transactions lead to every other model.", "quantifier": "for every model and every sequence of transactions whose modifications make sense one after the other; for every pair of models", "why_tests_cant": "The tests apply single modifications; that a way back exists for every history, also after recursive removals inside groups and after moves, is a statement about all sequences of modifications.", "anchors": ["include/vara/Feature/FeatureModelTransaction.h: AddFeatureToModel, RemoveFeatureFromModel, AddRelationshipToModel, RemoveRelationshipFromModel, AddLocationToFeature, RemoveLocationFromFeature, AddConstraintToModel, SetName, SetCommit, SetPath, SetRoot, AddChild"]}
{"id": "C100", "title": "Every object is freed exactly once", "statement": "Features and relationships allocated by the library belong to exactly one model of the program at any time: nothing is leaked, whatever calls failed, and nothing is freed twice or while a model still has it. When all models are gone, all their objects are gone.", "quantifier": "for every program that builds, loads, clones, edits (with modify and copy transactions) and destroys any number of models in any order, also with failing calls and with pointers into other models", "why_tests_cant": "A leak checker sees the executions it is run on; this is about all programs.", "anchors": ["include/vara/Feature/FeatureModel.h: FeatureModel (Features, Relationships, removeRelationship)", "lib/Feature/FeatureModel.cpp: addFeature, removeFeature, clone", "include/vara/Feature/FeatureModelTransaction.h: RemoveFeatureFromModel, SetRoot, RemoveRelationshipFromModel, AddRelationshipToModel"]}
{"id": "C101", "title": "The configurations of a merged model are those valid in both models", "statement": "If two feature models are merged without conflict, a selection of features is a valid configuration of the result exactly if it is valid in both models.", "quantifier": "for every pair of models that can be merged, strictly or not, and every selection of features and values of numeric features", "why_tests_cant": "The tests compare names and locations of a few merged models; that no configuration is lost or gained is about all models and all configurations.", "anchors": ["lib/Feature/FeatureModelTransaction.cpp: mergeFeatureModels, mergeSubtree, CompareProperties", "lib/Feature/FeatureModel.cpp: featureCopy"]}
{"id": "C102", "title": "Merging a model with itself changes nothing, and the order of two models does not matter", "statement": "Merging a model with itself, or with one that has nothing the first does not have, gives an equal model. Merging two models gives null in one order exactly if it does in the other, and otherwise models with the same root, features, attributes, parents, locations, groups and constraints.", "quantifier": "for every pair of models, strictly or not", "why_tests_cant": "The tests merge a few fixed models in one order; this relates two executions for all pairs of models.", "anchors": ["lib/Feature/FeatureModelTransaction.cpp: mergeFeatureModels, mergeSubtree, compareProperties, featureCopy"]}
{"id": "C103", "title": "Saving is reproducible and the saved document is final", "statement": "The document written for a model is determined by what the model says: models with the same features, tree, attributes, groups, implications, exclusions and constraints are written as the same document, whatever the order in which they were built, the addresses of their objects and the order of hash tables. A clone is written as the same document as its original. Loading a saved document and saving the result gives the same document again.", "quantifier": "for every model that can be written, every build order, every number of saves and loads", "why_tests_cant": "Tests compare one written file with one expected file. That the text does not depend on pointer values, hash order or build order, and does not change when saved again and again, relates arbitrarily many executions.", "anchors": ["lib/Feature/FeatureModelWriter.cpp: FeatureModelXmlWriter::writeVm, writeFeatures, writeFeature, writeBooleanConstraints, writeNonBooleanConstraints, writeMixedConstraints", "include/vara/Feature/OrderedFeatureVector.h: OrderedFeatureVector::insert", "lib/Feature/FeatureModelParser.cpp: FeatureModelXmlParser::buildFeatureModel, parseOptions"]}
{"id": "C104", "title": "Loading and saving normalises a document", "statement": "Two documents that list the same options and constraints, with the options, their child, implied and excluded lists in any order and in any layout (blanks, unknown elements, attribute order), are loaded and saved as one and the same document, whatever addresses and hash orders occur. That document is a normal form: loading and saving it again changes nothing.", "quantifier": "for every readable document that describes a tree, every reordering, every layout, every run", "why_tests_cant": "Tests load a few files and compare single values. The claim relates the output of two loads and saves of arbitrarily permuted documents over all hash orders and addresses.", "anchors": ["lib/Feature/FeatureModelParser.cpp: FeatureModelXmlParser::buildFeatureModel, parseVm, parseOptions, parseConfigurationOption, parseConstraints", "lib/Feature/FeatureModelWriter.cpp: FeatureModelXmlWriter::writeVm, writeFeatures, writeFeature", "lib/Feature/FeatureModelBuilder.cpp: FeatureModelBuilder::buildFeatureModel, buildConstraints, buildTree", "lib/Feature/Feature.cpp: Feature::operator<"]}
{"id": "C105", "title": "Merging three models does not depend on how they are grouped", "statement": "Merging the first two of three models and then the third, or the last two and then the result into the first, finds a conflict both ways or in neither, and without conflict gives models with the same features, members, locations, parents, constraints and names, whatever addresses and hash orders occur.", "quantifier": "for all three models that can be merged, strictly or not, and every run", "why_tests_cant": "Tests merge two small models. The claim relates the results of four merges of arbitrary models, two of which take the result of an earlier merge as input.", "anchors": ["lib/Feature/FeatureModelTransaction.cpp: mergeFeatureModels, mergeSubtree, compareProperties, featureCopy"]}
{"id": "C106", "title": "Options and iterators kept while a configuration is changed", "statement": "An option of a configuration that a program holds is the same object with the same name and value as long as no call sets that name, and is freed by the first call that does, even with the same value. The configuration owns exactly the options it maps to. A call may be given views of the texts of live options, also of the one it replaces. A loop over the configuration may set options that exist: it visits every name once, in order, with its value at that time. It may not set a new name.", "quantifier": "for all configurations, all sequences of calls with own texts or views of option texts, all loop bodies that set options, and every placement of new entries by the map", "why_tests_cant": "Tests set a few options and look at values; whether a held pointer, view or iterator is still good cannot be observed by a test that happens to read freed memory, and the order of entries and when the table moves are not specified.", "anchors": ["include/vara/Configuration/Configuration.h: Configuration, ConfigurationOption", "lib/Configuration/Configuration.cpp: addConfigurationOption, setConfigurationOption"]}
{"id": "C107", "title": "The printed text of a result tells its outcome", "statement": "Writing the result of a modification or of a question to a solver to a stream gives OK or the value for a success and a text of its own for every error code, so that the text tells success from failure and which error it was. Results that own their value cannot be printed at all.", "quantifier": "for all results with an error code of the library and nothing, a truth value or a number as value, and for all value and error types whose own texts are distinct", "why_tests_cant": "Tests print a few results; that no number and no two codes share a text is a statement about all of them.", "anchors": ["include/vara/Utils/Result.h: operator<<", "include/vara/Feature/Error.h: operator<<", "include/vara/Solver/Error.h: operator<<"]}
{"id": "C108", "title": "Locations and offsets made in Python are values", "statement": "A Location made in Python has the path, start, end and category it was made with (necessary if none is given) and is afterwards changed by exactly the assignments through a variable for it, for its start or for its end; changing the offsets it was made from, or another location made from them, does not reach it. Such programs never touch freed or missing memory, a statement that raises changes nothing, and two locations compare equal exactly if path, category, start and end agree; a location is not equal to None.", "quantifier": "for all Python programs that make, read, assign, compare and print Location and LineColumnOffset objects, in any order and with any aliasing of variables", "why_tests_cant": "Tests make one location and read it back; that no sequence of aliased assignments reaches another object is a statement about all programs.", "anchors": ["bindings/python/vara-feature/pybind_FeatureSourceRange.cpp: init_feature_location_module", "include/vara/Feature/FeatureSourceRange.h: FeatureSourceRange, getStart, getEnd, setPath, setCategory"]}
{"id": "C109", "title": "Exactly when the order of features is well behaved", "statement": "In a tree of features call two siblings twins if their names are equal ignoring case. Two features are unordered by operator< exactly if they are the same or lie below (or are) two twins; operator< is a strict weak order exactly if no twin has children; every sequence of insertions into and removals from an ordered vector is defined and leaves the sorted contents exactly then; and iteration gives the features in this order, does not depend on the layout of memory, and the contents of an ordered vector do not depend on the order of insertion, exactly if there are no twins.", "quantifier": "for all feature models with a tree of features, all pairs and triples of their features, all sequences of calls on ordered vectors, all layouts of memory", "why_tests_cant": "Each part is an equivalence over all models; a test shows one model in which the order behaves or does not.", "anchors": ["lib/Feature/Feature.cpp: operator<", "lib/Feature/OrderedFeatureVector.cpp: insert", "include/vara/Feature/FeatureModel.h: DFSIterator"]}
{"id": "C110", "title": "Exactly which printed constraints read back", "statement": "The printed text of a constraint is parsed, and as the same constraint with A excludes B read as A implies not B, exactly if every feature name in it is an identifier other than or and it uses neither xor nor division nor a negative number.", "quantifier": "for all constraints with numbers of 64 bits", "why_tests_cant": "An equivalence over all constraints of any depth and all names.", "anchors": ["include/vara/Feature/Constraint.h: toString", "include/vara/Feature/ConstraintParser.h: ConstraintParser"]}
{"id": "C111", "title": "What a loop that edits the model it iterates over visits", "statement": "A loop over a model whose body adds and moves features in any way, and removes only features that were visited before and are never moved, is defined as long as the body is; it visits features of the model only, those that may be removed at most once, and besides the root exactly the features that are a child of a visited feature when the body is through with that feature; and it ends if the number of features made is bounded.", "quantifier": "for all models, all such bodies (functions of what was visited, the model and the feature), all layouts of memory", "why_tests_cant": "Bodies are arbitrary programs and the number of rounds is unbounded.", "anchors": ["include/vara/Feature/FeatureModel.h: DFSIterator::operator++", "bindings/python/vara-feature/pybind_FeatureModel.cpp: __iter__"]}
{"id": "C112", "title": "Exactly which features a solver knows", "statement": "Whenever making a solver from a model succeeds, its options are exactly the names of the features that are neither of unknown kind nor below one of unknown kind. It never succeeds for a model with such an option that is Boolean below a numeric parent, or with an alternative group without members.", "quantifier": "for all feature models with a tree of features, all layouts of memory and orders of hash tables", "why_tests_cant": "A test lists the options of one model.", "anchors": ["include/vara/Solver/SolverFactory.h: initializeSolver", "lib/Solver/Z3Solver.cpp: addFeature, addRelationship"]}
{"id": "C113", "title": "Exactly when the edges given to a builder make a tree", "statement": "A builder that was asked for features with different names and for edges between any two different ones of them or the root, in any number and order and before or after the features, builds a model with exactly these features. The parent of a feature is that of the last edge for it; without an edge it is the root. The model is a tree exactly if these last edges contain no cycle and no edge leads to the root; nothing is reported otherwise.", "quantifier": "for all sequences of calls without groups and constraints, all such edges, all layouts of memory", "why_tests_cant": "The shape and number of the edges is unbounded, and the condition is an equivalence.", "anchors": ["lib/Feature/FeatureModelBuilder.cpp: buildFeatureModel", "include/vara/Feature/FeatureModelBuilder.h: addEdge", "include/vara/Feature/FeatureModelTransaction.h: AddChild"]}
{"id": "C114", "title": "Exactly what a clone is and when it is the same as the original", "statement": "Clone of a well-formed model with at most one group directly below each feature. There is a clone exactly if the constraints mention features of the model only and no other feature called root comes before the root in the order of the hash map. The clone has the same names, the same parent features and the same constraints; below a feature with a group there is nothing but that group in the clone, so children beside it become members. The clone is the same as the original, in attributes and groups, exactly if no feature has something the clone drops (an output string, a step function, for the root and features of unknown kind anything but the name) and no feature has a child beside its group.", "quantifier": "for all well-formed models as described, all layouts of memory", "why_tests_cant": "The condition is an equivalence over all models; tests compare a few clones.", "anchors": ["lib/Feature/FeatureModel.cpp: FeatureModel::clone", "lib/Feature/FeatureModelBuilder.cpp: buildFeatureModel"]}
{"id": "C115", "title": "The constraints of an SXFM model are exactly the lines that can be read", "statement": "If an SXFM document with a feature tree and constraints is loaded, every non-blank line of its constraints has a colon, the boolean constraints of the model are the lines whose text behind the colon, after the replacement of identifiers and connectives, is a constraint, in the order of the lines, and the model has no other constraints. Hence no line is lost if and only if all non-blank lines can be read.", "quantifier": "for all documents with any feature tree and any text of constraints, all orders of hash tables", "why_tests_cant": "All texts; which lines vanish depends on all identifiers of the tree.", "anchors": ["lib/Feature/FeatureModelParser.cpp: FeatureModelSxfmParser::parseConstraints", "lib/Feature/FeatureModelBuilder.cpp: buildFeatureModel"]}
{"id": "C116", "title": "A loaded XML document has lost no constraint", "statement": "If an XML document is loaded, the text of every constraint element is a constraint, and the constraints of each class are constraints of the model in the order of the document; the non-boolean and the mixed constraints of the model are exactly these. A document with a constraint that cannot be read gives no model.", "quantifier": "for all documents, valid or not and laid out in any way, all layouts of memory", "why_tests_cant": "All documents; the alternatives are detected by editing the model after the constraints are in it.", "anchors": ["lib/Feature/FeatureModelParser.cpp: FeatureModelXmlParser::parseConstraints, parseVm, detectXMLAlternatives", "lib/Feature/FeatureModelBuilder.cpp: buildFeatureModel"]}
