{"id": "C01", "title": "Copyability bounds form a lattice and rows are copyable iff every element is", "statement": "TypeBound::union is the least upper bound for the order given by TypeBound::contains (Linear on top, Copyable at the bottom), and the bound reported for a sum type or row is Copyable exactly when every component type is Copyable; functions are always Copyable.", "quantifier": "all bounds; all types, all sum types with any number of variants and any row lengths, arbitrarily nested", "why_tests_cant": "types are unboundedly large trees; a unit test checks a handful of them", "anchors": ["hugr-core/src/types.rs: TypeBound::union, TypeBound::contains, least_upper_bound, TypeEnum::least_upper_bound, Type::copyable"]}
{"id": "C02", "title": "Compact and general sum types are interchangeable", "statement": "A sum type created from n empty rows is equal to the compact n-variant unit sum, hashes the same way, and reports the same number of variants, the same row for each tag, the same tuple/option views; equality is an equivalence relation that agrees with equality of the rows.", "quantifier": "all sum types, all tags, all numbers of variants", "why_tests_cant": "unbounded number of variants and rows", "anchors": ["hugr-core/src/types.rs: SumType::{new, eq, hash, get_variant, num_variants, as_tuple, as_option, variants}"]}
{"id": "C03", "title": "Substitution of well-kinded arguments keeps types valid", "statement": "If a type is valid in a list of type-variable declarations and arguments of the declared kinds, each valid in a target context, are substituted for the variables, the result is valid in the target context and no more linear than before (a Copyable type stays Copyable).", "quantifier": "all types, all declaration lists, all argument lists that check against them, all target contexts", "why_tests_cant": "quantifies over every type tree and every argument list", "anchors": ["hugr-core/src/types.rs: TypeBase::substitute, validate; Substitution::apply_var, apply_rowvar", "hugr-core/src/types/type_param.rs: Term::substitute, Term::validate, check_term_type"]}
{"id": "C04", "title": "Substituting variables by themselves changes nothing", "statement": "Substituting each declared variable by a use of the same variable returns the original term or type unchanged.", "quantifier": "all valid terms, types and type rows, all variable declarations", "why_tests_cant": "every constructor at every depth must be preserved; one wrong arm (e.g. a tuple type rebuilt as a list type) is invisible to tests that do not hit it", "anchors": ["hugr-core/src/types/type_param.rs: Term::substitute", "hugr-core/src/types.rs: TypeBase::substitute", "hugr-core/src/types/type_row.rs: TypeRow::substitute"]}
{"id": "C05", "title": "Substitutions compose", "statement": "Applying one argument list and then another gives the same term, type or row as applying the composed argument list once.", "quantifier": "all terms, types and rows valid in the source declarations, all pairs of argument lists of matching kinds", "why_tests_cant": "requires an induction on all types; row-variable splicing and list normalisation make it non-obvious", "anchors": ["hugr-core/src/types/type_param.rs: Term::substitute, new_list_from_parts, new_tuple_from_parts", "hugr-core/src/types.rs: Substitution"]}
{"id": "C06", "title": "Instantiation of polymorphic functions accepts exactly well-kinded argument lists", "statement": "PolyFuncType::instantiate succeeds iff the number of arguments equals the number of parameters and every argument checks against the corresponding parameter; on success the resulting signature contains no variable of the instantiated scheme and is valid in the context of the arguments.", "quantifier": "all polymorphic function types and all argument lists", "why_tests_cant": "unbounded types and argument lists, and the negative direction", "anchors": ["hugr-core/src/types/poly_func.rs: PolyFuncTypeBase::instantiate, validate", "hugr-core/src/types/type_param.rs: check_term_types"]}
{"id": "C07", "title": "Kind checking respects the subtype relation of kinds", "statement": "The supertype relation on kinds is reflexive and transitive, and any argument accepted for a kind is accepted for every superkind of it.", "quantifier": "all kinds and all arguments", "why_tests_cant": "infinitely many kinds (nested list and tuple kinds)", "anchors": ["hugr-core/src/types/type_param.rs: Term::is_supertype, check_term_type"]}
{"id": "C08", "title": "List and tuple concatenation terms denote concatenation", "statement": "Building a list (or tuple) from a sequence of items and spliced lists yields a term denoting the concatenation of the parts; closed results are plain lists; decomposing a term built this way and rebuilding it gives back the same term.", "quantifier": "all sequences of parts, nested to any depth", "why_tests_cant": "unbounded nesting of lists within concatenations", "anchors": ["hugr-core/src/types/type_param.rs: Term::new_list_from_parts, new_tuple_from_parts, into_list_parts, into_tuple_parts, ListPartIter, TuplePartIter"]}
{"id": "C09", "title": "Operation tags are partially ordered by inclusion", "statement": "OpTag::is_superset is reflexive, antisymmetric and transitive, Any is above every tag and None below every tag, and one tag is a superset of another exactly when it is reachable by following immediate supersets; the PartialOrd instance agrees with it.", "quantifier": "all tags", "why_tests_cant": "a statement about all triples of tags and about a recursive search; the existing test lists a few pairs", "anchors": ["hugr-core/src/ops/tag.rs: OpTag::is_superset, immediate_supersets, partial_cmp"]}
{"id": "C10", "title": "Port numbering of an operation is consistent", "statement": "For every operation (a Tag operation having a tag among its variants) the value ports, the static port and the order/control-flow ports of one direction occupy disjoint index ranges that together are exactly the ports 0..port_count; asking for the kind of a port in that range returns the kind of the range containing it, and asking for the static or order port returns the index of the first port whose kind is static or order.", "quantifier": "all operations, both directions, all port offsets", "why_tests_cant": "holds for every signature length", "anchors": ["hugr-core/src/ops.rs: OpType::{port_kind, static_port, other_port, value_port_count, static_port_count, port_count, other_port_index}"]}
{"id": "C11", "title": "Integer constants round-trip through both encodings", "statement": "ConstInt::new_u(w,n) succeeds iff w<=6 and n<2^(2^w) and then value_u is n; ConstInt::new_s(w,n) succeeds iff w<=6 and -2^(2^w-1)<=n<2^(2^w-1) and then value_s is n; value_s is the two's-complement reading of value_u.", "quantifier": "all log widths and all 64-bit values", "why_tests_cant": "2^64 values per width", "anchors": ["hugr-core/src/std_extensions/arithmetic/int_types.rs: ConstInt::{new_u,new_s,value_u,value_s}, is_valid_log_width"]}
{"id": "C12", "title": "Folded integer addition, subtraction, negation, multiplication and power wrap modulo 2^N", "statement": "When constant folding replaces iadd, isub, imul, ineg or ipow of N-bit constants by a constant, that constant is the mathematical result modulo 2^N.", "quantifier": "all widths N = 1,2,...,64 and all pairs of N-bit values", "why_tests_cant": "2^128 operand pairs; overflow boundaries", "anchors": ["hugr-core/src/std_extensions/arithmetic/int_ops/const_fold.rs"]}
{"id": "C13", "title": "Folded integer division is exact Euclidean division", "statement": "When constant folding evaluates (checked or unchecked) idivmod/idiv/imod, signed or unsigned, the quotient q and remainder r satisfy q*m + r = n and 0 <= r < m, and a zero divisor is reported as an error or left unfolded.", "quantifier": "all widths, all dividends and divisors", "why_tests_cant": "the i64::MIN corner case among 2^128 inputs", "anchors": ["hugr-core/src/std_extensions/arithmetic/int_ops/const_fold.rs: divmod_s, folder for idivmod_*, idiv_*, imod_*"]}
{"id": "C14", "title": "Folded shifts, rotations and bitwise logic match N-bit semantics", "statement": "Folding ishl, ishr, irotl, irotr, iand, ior, ixor, inot gives the N-bit result: shifts drop bits and fill with zero (so a shift of N or more gives 0), rotations rotate modulo N, bitwise operations act on the N low bits; folding never aborts.", "quantifier": "all widths, all values, all shift amounts", "why_tests_cant": "shift amounts beyond 64 and width 64 corner cases", "anchors": ["hugr-core/src/std_extensions/arithmetic/int_ops/const_fold.rs: ishl, ishr, irotl, irotr, iand, ior, ixor, inot"]}
{"id": "C15", "title": "Folded comparisons, extrema, absolute value and width changes match integer semantics", "statement": "Folding of comparisons, min/max, abs, widening, narrowing and sign casts returns the result of the operation on the mathematical integers denoted by the constants, reporting the narrowing error exactly when the value does not fit, and the folded value has the operation's declared output type.", "quantifier": "all widths, all values", "why_tests_cant": "2^64 values and all pairs of widths", "anchors": ["hugr-core/src/std_extensions/arithmetic/int_ops/const_fold.rs: iwiden_*, inarrow_*, i*_to_*, ieq..ige_s, imax_*, imin_*, iabs", "hugr-core/src/std_extensions/arithmetic/int_ops.rs"]}
{"id": "C16", "title": "Dataflow join is a least upper bound", "statement": "Joining two abstract values yields a value describing every concrete value described by either one; join is idempotent, and commutative and associative for values of one type; nothing strictly smaller describes both.", "quantifier": "all abstract values (nested sums of any depth, any tags)", "why_tests_cant": "abstract values are unbounded trees; proptests sample them", "anchors": ["hugr-passes/src/dataflow/partial_value.rs: PartialValue::join_mut, PartialSum::try_join_mut"]}
{"id": "C17", "title": "Dataflow meet is a greatest lower bound", "statement": "Meeting two abstract values yields a value that describes every concrete value described by both, and is below both in the lattice order.", "quantifier": "all abstract values", "why_tests_cant": "unbounded trees", "anchors": ["hugr-passes/src/dataflow/partial_value.rs: PartialValue::meet_mut, PartialSum::try_meet_mut"]}
{"id": "C18", "title": "The change flag of join and meet is exact", "statement": "join_mut and meet_mut return true exactly when they changed the value (so fixpoint iteration neither stops early nor reports spurious change).", "quantifier": "all pairs of abstract values", "why_tests_cant": "unbounded trees", "anchors": ["hugr-passes/src/dataflow/partial_value.rs: join_mut, meet_mut, try_join_mut, try_meet_mut", "hugr-passes/src/dataflow/value_row.rs"]}
{"id": "C19", "title": "The comparison of abstract values is the lattice order", "statement": "a <= b in the PartialOrd instance holds exactly when joining a into b leaves b unchanged.", "quantifier": "all pairs of abstract values", "why_tests_cant": "pairs of sums with different tag sets are unbounded", "anchors": ["hugr-passes/src/dataflow/partial_value.rs: PartialOrd for PartialSum and PartialValue"]}
{"id": "C20", "title": "The node hierarchy stays a tree under every sequence of edits", "statement": "After any sequence of successful node additions, moves, sibling insertions, removals and subtree removals, every live node except the module root has exactly one parent, appears exactly once in its parent's children list, and reaches the module root by following parents; the module root and the entrypoint stay live.", "quantifier": "all finite sequences of HugrMut operations from a fresh Hugr", "why_tests_cant": "ranges over all histories", "anchors": ["hugr-core/src/hugr/hugrmut.rs: add_node_with_parent, add_node_before, add_node_after, set_parent, move_before_sibling, move_after_sibling, remove_node, remove_subtree", "hugr-core/src/hugr/internal.rs: HugrMutInternals"]}
{"id": "C21", "title": "Links are symmetric and local", "statement": "Connecting two ports adds exactly that link; disconnecting a port removes exactly the links of that port; adding or inserting ports keeps every other link attached to the port that moved; links seen from both endpoints agree.", "quantifier": "all graphs and all sequences of connect/disconnect/port operations", "why_tests_cant": "ranges over all histories and graphs", "anchors": ["hugr-core/src/hugr/hugrmut.rs: connect, disconnect", "hugr-core/src/hugr/internal.rs: set_num_ports, add_ports, insert_ports"]}
{"id": "C22", "title": "Removing a subtree removes exactly the node and its descendants", "statement": "After remove_subtree(n) the live nodes are the previous live nodes that are not n and not descendants of n, and the links left are those between surviving nodes.", "quantifier": "all hierarchies and all nodes", "why_tests_cant": "unbounded hierarchies", "anchors": ["hugr-core/src/hugr/hugrmut.rs: remove_subtree, copy_descendants", "hugr-core/src/hugr/views.rs: descendants"]}
{"id": "C23", "title": "Inserting one Hugr into another copies it faithfully", "statement": "insert_hugr returns an injective map from the inserted nodes to fresh nodes; operations, child order, links and metadata of the copied region are the same up to the map, and the host's existing nodes and links are unchanged.", "quantifier": "all host and inserted Hugrs, all parents", "why_tests_cant": "unbounded graphs; aliasing of node indices", "anchors": ["hugr-core/src/hugr/hugrmut.rs: insert_hugr, insert_from_view, insert_forest_internal"]}
{"id": "C24", "title": "Canonicalising node indices only renumbers nodes", "statement": "canonicalize_nodes makes the live nodes occupy 0..n in canonical (breadth-first) order and yields an isomorphic Hugr: every operation, child list, link and metadata entry stays with its node.", "quantifier": "all Hugrs, including those with holes from earlier removals", "why_tests_cant": "an in-place permutation whose correctness depends on every cycle structure", "anchors": ["hugr-core/src/hugr.rs: canonicalize_nodes, canonical_order"]}
{"id": "C25", "title": "JSON serialisation round-trips", "statement": "Converting a Hugr to its serialised form and back gives an isomorphic Hugr with the same operations, hierarchy order, links, entrypoint and metadata.", "quantifier": "all Hugrs that validate (hierarchy a tree under a module, ports as the operations say), including those with removed nodes and reused indices", "why_tests_cant": "unbounded graphs with holes in the index space", "anchors": ["hugr-core/src/hugr/serialize.rs: TryFrom<&Hugr> for SerHugrLatest, TryFrom<SerHugrLatest> for Hugr"]}
{"id": "C26", "title": "Metadata belongs to the node it was set on", "statement": "Reading metadata of a live node returns the last value set on that node since it was created; a fresh node has no metadata.", "quantifier": "all histories of node creation, removal and metadata edits", "why_tests_cant": "only visible on histories where a node index is reused", "anchors": ["hugr-core/src/hugr/hugrmut.rs: set_metadata, remove_metadata, add_node, remove_node", "hugr-core/src/hugr.rs: Hugr::add_node"]}
{"id": "C27", "title": "Scoped symbol resolution follows lexical scoping", "statement": "SymbolTable::resolve returns the innermost binding of the name among the open scopes, insert fails exactly on a duplicate in the current scope leaving the table unchanged, exit restores the state at the matching enter, and is_visible(node) holds iff resolving the node's name returns it.", "quantifier": "all well-bracketed sequences of enter/insert/exit with distinct nodes and regions", "why_tests_cant": "ranges over histories; index arithmetic that coincides on short examples", "anchors": ["hugr-model/src/v0/scope/symbol.rs: SymbolTable::{enter,exit,insert,is_visible,resolve}"]}
{"id": "C28", "title": "Link names are numbered densely per closed region", "statement": "Within one region equal link names get equal indices and different names different indices, indices are exactly 0..links in first-use order, exit reports the number of distinct names and of uses, and links of different regions never share state.", "quantifier": "all well-bracketed sequences of enter/use_link/exit with distinct open regions", "why_tests_cant": "ranges over histories", "anchors": ["hugr-model/src/v0/scope/link.rs: LinkTable::{enter,exit,use_link}"]}
{"id": "C29", "title": "Variables resolve to their declaration index in the innermost node", "statement": "VarTable::resolve(name) returns (node,i) iff name was the i-th variable inserted since the innermost open enter; insert fails iff the name is already declared there; outer variables are invisible until exit, when they are visible again.", "quantifier": "all well-bracketed sequences of enter/insert/exit with distinct open nodes", "why_tests_cant": "ranges over histories", "anchors": ["hugr-model/src/v0/scope/vars.rs: VarTable::{enter,exit,insert,resolve,is_visible}"]}
{"id": "C30", "title": "An extension registry keeps the newest version of each extension", "statement": "After any sequence of register_updated calls the registry maps each extension id to the first registered among those with the highest version; register fails iff the id is present and never changes an existing entry; removal removes just that id.", "quantifier": "all sequences of registry operations", "why_tests_cant": "ranges over histories and version orders", "anchors": ["hugr-core/src/extension.rs: ExtensionRegistry::{register,register_updated,register_updated_ref,remove_extension,get,new}"]}
{"id": "C31", "title": "Registry validation is never stale", "statement": "Whenever ExtensionRegistry::validate returns Ok, every extension currently in the registry is valid, whatever sequence of registrations, removals, clones and validations came before.", "quantifier": "all histories of registry operations", "why_tests_cant": "a cached validity flag can go stale only on particular histories", "anchors": ["hugr-core/src/extension.rs: ExtensionRegistry::{validate,register,register_updated,remove_extension,clone}"]}
{"id": "C32", "title": "Envelope headers round-trip and are the only accepted ones", "statement": "Reading a written envelope header returns it and consumes exactly the ten written bytes; every accepted ten-byte prefix is the encoding of the header returned; any other prefix is rejected with the corresponding error.", "quantifier": "all headers and all byte sequences", "why_tests_cant": "2^80 prefixes", "anchors": ["hugr-core/src/envelope/header.rs: EnvelopeHeader::{read,write}, EnvelopeFormat"]}
{"id": "C33", "title": "String literals survive printing and parsing in the text format", "statement": "Parsing the printed form of a string literal gives the string back, for every string, and the printed literal is delimited so that what follows it is not consumed.", "quantifier": "all strings over all characters", "why_tests_cant": "unbounded strings", "anchors": ["hugr-model/src/v0/ast/print.rs: Printer::string", "hugr-model/src/v0/ast/parse.rs: parse_string", "hugr-model/src/v0/ast/hugr.pest"]}
{"id": "C34", "title": "Terms of the text format survive printing and parsing", "statement": "Parsing the printed form of a term gives the term back (up to flattening of spliced literal lists and tuples).", "quantifier": "all terms without function constants whose names are well formed and not read as something else by the grammar, and every layout the printer may choose", "why_tests_cant": "unbounded terms and the ordered-choice semantics of the grammar", "anchors": ["hugr-model/src/v0/ast/print.rs: print_term", "hugr-model/src/v0/ast/parse.rs: parse_term", "hugr-model/src/v0/ast/hugr.pest"]}
{"id": "C35", "title": "Dead-code elimination keeps everything the results depend on", "statement": "After the pass, every node in the entrypoint region that must be kept, or on which a kept node depends by a data or static edge or as an ancestor, is still there with all its incoming links; nodes outside the entrypoint region are untouched; every removed node is not needed.", "quantifier": "all Hugrs, all entry points, all preserve callbacks", "why_tests_cant": "unbounded graphs; reachability closure", "anchors": ["hugr-passes/src/dead_code.rs: DeadCodeElimPass::{find_needed_nodes,must_preserve,run}"]}
{"id": "C36", "title": "Dead-function removal removes exactly the unreachable functions", "statement": "After the pass, the functions left in the module are exactly those reachable from the entry points through call and load-function edges, plus the function enclosing the entrypoint.", "quantifier": "all modules and call graphs", "why_tests_cant": "reachability in unbounded (cyclic) graphs", "anchors": ["hugr-passes/src/dead_funcs.rs: RemoveDeadFuncsPass::run, reachable_funcs", "hugr-core/src/module_graph.rs: ModuleGraph::new"]}
{"id": "C37", "title": "Forcing an order yields a topological order that respects ranks", "statement": "For an acyclic region the nodes are put in a total order that contains every node exactly once and respects all edges (so adding the order edges keeps the region acyclic), and a node of lower rank is placed first whenever all its predecessors are already placed.", "quantifier": "all finite acyclic graphs and all rank functions", "why_tests_cant": "unbounded graphs", "anchors": ["hugr-passes/src/force_order.rs: force_order_by_key, ForceOrder::{new,next}"]}
{"id": "C38", "title": "Region block discovery returns exactly the blocks between two edges", "statement": "When region_blocks(entry, exit) succeeds the returned set is exactly the set of blocks reachable from the entry edge's target without crossing the exit edge, it excludes the source of the entry edge, and the only outside predecessor of the region's first block is that source.", "quantifier": "all control-flow graphs and edge pairs", "why_tests_cant": "reachability in unbounded cyclic graphs", "anchors": ["hugr-passes/src/nest_cfgs.rs: region_blocks"]}
{"id": "C39", "title": "Persistent histories never contain conflicting commits", "statement": "Every PersistentHugr obtained by creation and any sequence of successful additions contains exactly one base commit, with every commit all its parents, and no two commits deleting the same node; find_conflicting_node reports a node iff two of the children delete it.", "quantifier": "all histories of commits", "why_tests_cant": "ranges over histories", "anchors": ["hugr-persistent/src/persistent_hugr.rs: try_new, try_add_replacement, try_add_commits, find_conflicting_node, get_ancestors_while"]}
{"id": "C40", "title": "Sum layouts give each field of a variant its own slot of the right type", "statement": "layout_variants assigns to every non-elided field of every variant a slot of the same type, different fields of one variant get different slots, elided fields get none, and for each type the number of slots is the maximum number needed by any one variant.", "quantifier": "all lists of variants over any ordered type", "why_tests_cant": "unbounded variants", "anchors": ["hugr-llvm/src/sum/layout.rs: layout_fields, layout_variants_impl"]}
{"id": "C41", "title": "Identifier paths are validated and split consistently", "statement": "IdentList::new accepts exactly the non-empty dot-separated lists of identifiers (word characters not starting with a digit), and split_last returns a valid prefix and the last component whose re-join with a dot is the original, or None iff there is a single component.", "quantifier": "all strings", "why_tests_cant": "unbounded strings", "anchors": ["hugr-core/src/hugr/ident.rs: IdentList::{new,split_last}"]}
{"id": "C42", "title": "Linking by node keeps, replaces and rewires exactly what the directives say", "statement": "Linking a Hugr into another by per-node directives: nodes without a directive to reuse an existing node are copied with their subtrees; every link that left a replaced node leaves its replacement on the same port; uses of a node to be taken from the host attach to that existing node or to what replaced it; exactly the replaced subtrees are removed; everything else is unchanged. Inconsistent directives (missing children, clashing replacements) are refused with the host unchanged.", "quantifier": "all pairs of well-formed Hugrs and all maps of directives", "why_tests_cant": "unbounded modules, uses and combinations of directives", "anchors": ["hugr-core/src/hugr/linking.rs: insert_link_view_by_node, insert_link_hugr_by_node, check_directives"]}
{"id": "C43", "title": "Substitution in an operation is substitution in its meaning", "statement": "Substituting type arguments in an operation gives an operation whose signature, body signature and branch inputs are the substituted ones, with the same number and sorts of ports; the cached instantiation of a call stays the instantiation of the called function at the substituted arguments.", "quantifier": "all operations, all substitutions", "why_tests_cant": "ranges over every operation, signature and substitution", "anchors": ["hugr-core/src/ops.rs: OpTrait::substitute", "hugr-core/src/ops/dataflow.rs: Call::substitute, LoadFunction::substitute", "hugr-core/src/ops/controlflow.rs: substitute, inner_signature, case_input_row, successor_input", "hugr-core/src/ops/sum.rs: Tag::substitute"]}
{"id": "C44", "title": "Queries on abstract values are sound", "statement": "An abstract value reports that it cannot occur (contains_bottom) exactly when it describes no concrete value; every described sum value has a supported tag and its elements are described by the reported elements of that variant; and if the abstract value converts to a concrete one, that is the only value it describes.", "quantifier": "all abstract values (nested sums of any depth) and all concrete values", "why_tests_cant": "abstract values are unbounded trees, and the claims quantify over all concrete values they describe", "anchors": ["hugr-passes/src/dataflow/partial_value.rs: contains_bottom, supports_tag, variant_values, try_into_concrete"]}
{"id": "C45", "title": "Copying nodes from a view", "statement": "insert_view_forest and insert_from_view add a copy of the given nodes with their operations, ports, children in order, mutual links and metadata, place the roots where asked, and leave the rest of the host unchanged; an error leaves the host unchanged, and a node with no parent given and no copied parent has no parent.", "quantifier": "all hosts, views, node lists, root placements and index allocations", "why_tests_cant": "unbounded graphs, every allocation of indices including reuse of those of removed nodes", "anchors": ["hugr-core/src/hugr/hugrmut.rs: insert_view_forest, insert_from_view, insert_forest_internal"]}
{"id": "C46", "title": "Packages of the text format survive printing and parsing", "statement": "Parsing the printed form of a package gives the package back (up to flattening of spliced literal lists and tuples in its terms); likewise for nodes, regions, symbols and parameters.", "quantifier": "all packages without function constants and invalid operations, in which only operations with ports have ports and signatures, whose names are well formed and not read as something else by the grammar, and every layout the printer may choose", "why_tests_cant": "unbounded nesting of regions and nodes and the ordered-choice semantics of the grammar: a name that starts with a keyword can be read as the keyword", "anchors": ["hugr-model/src/v0/ast/print.rs: print_package, print_node, print_region, print_symbol", "hugr-model/src/v0/ast/parse.rs: parse_package, parse_node, parse_region, parse_symbol", "hugr-model/src/v0/ast/hugr.pest"]}
{"id": "C47", "title": "Validation accepts exactly the valid Hugrs", "statement": "Validation of a Hugr succeeds exactly if the Hugr satisfies the rules of the specification: port counts, which operations contain which, the shape of dataflow graphs, conditionals and control-flow graphs, acyclicity, the number of links and equal types of linked ports, where non-local edges may go (static data, copyable values with an order edge or from a dominating block), well-formed types and arguments under the variables in scope, and consistent public names. An error that is reported is there.", "quantifier": "all Hugrs whose hierarchy is a tree and whose links connect existing ports, all extension definitions", "why_tests_cant": "unbounded graphs of any nesting; acceptance has to exclude every way to break a rule, including paths in control-flow graphs and cycles of any length", "anchors": ["hugr-core/src/hugr/validate.rs: validate, validate_node, validate_port, validate_edge, validate_children, validate_subtree, validate_linkage", "hugr-core/src/ops/validate.rs: validity_flags, validate_op_children, validate_io_nodes, validate_cfg_edge", "specification/hugr.md"]}
{"id": "C48", "title": "The dataflow analysis covers every execution", "statement": "Whatever the order in which the rules are evaluated, once the analysis of a valid Hugr has finished, every value that appears on a wire in an execution from the announced starting points is described by the abstract value reported for that wire; cases and blocks that are entered are reported reachable; a loop that continues is not reported as never continuing, and one that ends not as never ending.", "quantifier": "all valid Hugrs, all analysis contexts whose extension operations and constants are faithful, all schedules of the fixpoint, all executions and starting inputs", "why_tests_cant": "unbounded Hugrs with recursion, loops and indirect calls; all schedules; all executions of unbounded length", "anchors": ["hugr-passes/src/dataflow/datalog.rs: Machine, prepopulate_inputs, run, run_datalog, propagate_leaf_op", "hugr-passes/src/dataflow/results.rs: read_out_wire, case_reachable, bb_reachable, tail_loop_terminates"]}
{"id": "C49", "title": "Constant folding only replaces values by equal constants", "statement": "Every wire that the constant folding pass replaces by a loaded constant carries, in every execution from the announced starting points, exactly the value of that constant; the pass changes nothing else than where these wires come from, and whatever happens in an execution before happens after as well, with the same values.", "quantifier": "all valid Hugrs, all folders of extension operations that are right about their results, all inputs given to the pass, all schedules of the analysis, all executions", "why_tests_cant": "unbounded Hugrs with recursion, loops and calls; a wrong constant shows only for particular inputs of an execution", "anchors": ["hugr-passes/src/const_fold.rs: ConstantFoldPass::run, constant_fold_pass, ConstFoldContext", "hugr-passes/src/const_fold/value_handle.rs: ValueHandle", "hugr-passes/src/dataflow/results.rs: try_read_wire_concrete"]}
{"id": "C50", "title": "Removing dead code preserves executions", "statement": "Dead code elimination, alone or at the end of constant folding, does not change what a program does: every step of an execution on the nodes that are left also happens after the pass with the same values, and, for dead code elimination alone, nothing happens after the pass that could not happen before.", "quantifier": "all valid Hugrs, all callbacks that say what may be removed, all given entry points, all executions with arbitrary behaviour of the extension operations", "why_tests_cant": "unbounded graphs and executions; a node that is wrongly removed shows only in executions that reach its consumer", "anchors": ["hugr-passes/src/dead_code.rs: DeadCodeElimPass::run, find_needed_nodes, must_preserve", "hugr-passes/src/const_fold.rs: ConstantFoldPass::run"]}
{"id": "C51", "title": "Inlining a DFG node succeeds and does what it says", "statement": "In every valid Hugr, the InlineDFG rewrite applied to a DFG node other than the entrypoint succeeds, without panic. It removes exactly the DFG node and its input and output, moves the other children behind the other children of the parent, links every user of an input or result to where that value comes from, and orders the nodes that were ordered by way of the removed ones; nothing else changes. It is refused exactly for nodes that are no DFG nodes and for the entrypoint.", "quantifier": "all valid Hugrs, all nodes other than the module root", "why_tests_cant": "unbounded graphs; pass-through wires, links that leave the region, order links and several links at one port interact", "anchors": ["hugr-core/src/hugr/patch/inline_dfg.rs: InlineDFG, PatchVerification::verify, PatchHugrMut::apply_hugr_mut"]}
{"id": "C52", "title": "Inlining a DFG node preserves what functions return", "statement": "After the InlineDFG rewrite every function definition of the Hugr can return exactly the results that it could return before, for all arguments.", "quantifier": "all valid Hugrs, all DFG nodes, all functions, all arguments and results, all (also nondeterministic) behaviours of extension operations", "why_tests_cant": "unbounded graphs, loops and recursion; all behaviours of unknown operations", "anchors": ["hugr-core/src/hugr/patch/inline_dfg.rs: InlineDFG, PatchHugrMut::apply_hugr_mut"]}
{"id": "C53", "title": "Inlining a DFG node keeps a Hugr valid", "statement": "The result of the InlineDFG rewrite on a valid Hugr is a valid Hugr.", "quantifier": "all valid Hugrs, all DFG nodes other than the entrypoint", "why_tests_cant": "unbounded graphs; links from outer regions and order links interact in ways no finite set of tests covers", "anchors": ["hugr-core/src/hugr/patch/inline_dfg.rs: InlineDFG, PatchHugrMut::apply_hugr_mut", "hugr-core/src/hugr/validate.rs: HugrView::validate"]}
{"id": "C54", "title": "Inlining a call replaces it by a copy of the body", "statement": "In every valid Hugr, the InlineCall rewrite applied to a call of a function definition that does not contain the call succeeds, without panic: the call becomes a DFG node whose children are copies of the children of the function, with the same links among the copies and from outside, without the link from the function, with the same order links; nothing else changes, and the result is a valid Hugr. It is refused exactly for nodes that are no calls and for calls of functions that are only declared.", "quantifier": "all valid Hugrs, all nodes, all choices of unused indices for the copies", "why_tests_cant": "unbounded graphs and nesting; the copy is made in place, among links into and out of the function", "anchors": ["hugr-core/src/hugr/patch/inline_call.rs: InlineCall, PatchVerification::verify, PatchHugrMut::apply_hugr_mut", "hugr-core/src/hugr/hugrmut.rs: copy_descendants"]}
{"id": "C55", "title": "Inlining a call preserves what functions return", "statement": "After the InlineCall rewrite every function definition of the Hugr can return exactly the results that it could return before, for all arguments, if copies of operations and constants do what the originals do.", "quantifier": "all valid Hugrs, all calls of functions, all functions, all arguments and results, all (also nondeterministic) behaviours of extension operations", "why_tests_cant": "unbounded graphs, loops and recursion; all behaviours of unknown operations", "anchors": ["hugr-core/src/hugr/patch/inline_call.rs: InlineCall, PatchHugrMut::apply_hugr_mut", "hugr-core/src/hugr/hugrmut.rs: copy_descendants"]}
{"id": "C56", "title": "Inlining all calls of functions that are not recursive terminates and preserves results", "statement": "For every valid Hugr, inline_acyclic terminates without panic, whatever the predicate answers. Every function can return exactly the results that it could return before, and the result is valid. Afterwards every call below the entrypoint is of a function on a cycle of the call graph, of a declared function, or was refused by the predicate; nodes other than calls below the entrypoint of functions that are not on cycles are unchanged.", "quantifier": "all valid Hugrs, all predicates, all choices of unused indices for copies, all functions, arguments and behaviours of extension operations", "why_tests_cant": "the pass inlines into the functions it copies from, in an order that depends on the graph: termination and preservation must hold for all call graphs", "anchors": ["hugr-passes/src/inline_funcs.rs: inline_acyclic", "hugr-core/src/module_graph.rs: ModuleGraph::new", "hugr-core/src/hugr/patch/inline_call.rs: InlineCall"]}
{"id": "C57", "title": "Inlining all DFG nodes keeps a Hugr valid and preserves results", "statement": "For every valid Hugr, InlineDFGsPass does not panic. Afterwards there is no DFG node inside the entrypoint: these nodes, their inputs and their outputs are gone, and every other node is in the closest container that is left. The result is valid, and every function can return exactly the results that it could return before.", "quantifier": "all valid Hugrs, all functions, arguments and behaviours of extension operations", "why_tests_cant": "DFG nodes can be nested and linked in any way; each rewrite changes the graph that the next one is applied to", "anchors": ["hugr-passes/src/inline_dfgs.rs: InlineDFGsPass::run", "hugr-core/src/hugr/patch/inline_dfg.rs: InlineDFG"]}
{"id": "C58", "title": "A simple replacement puts the replacement in the place of the subgraph", "statement": "If SimpleReplacement::try_new accepts a subgraph of leaf nodes of a dataflow region of a valid Hugr and a valid replacement (which it does exactly if the signatures agree), applying the rewrite succeeds: the nodes of the subgraph are gone, copies of the nodes of the replacement without its entrypoint, input and output are in the region, what fed an input of the subgraph feeds what the replacement's input feeds, what used an output uses what feeds the replacement's output, values that the replacement hands through are linked directly, and all the rest is unchanged. The map returned tells where each node went. The rewrite is refused exactly if the parent is no dataflow region or a node has another parent or has children.", "quantifier": "all valid Hugrs, all subgraphs, all replacements, all choices of unused indices for the copies", "why_tests_cant": "unbounded graphs; wires that are copied, discarded or handed through and links across the boundary combine in unboundedly many ways", "anchors": ["hugr-core/src/hugr/patch/simple_replace.rs: SimpleReplacement::try_new, is_valid_rewrite, PatchHugrMut::apply_hugr_mut", "hugr-core/src/hugr/views/sibling_subgraph.rs: SiblingSubgraph::signature"]}
{"id": "C60", "title": "A simple replacement keeps a Hugr valid", "statement": "If SimpleReplacement::try_new accepts a subgraph of a valid Hugr that can be seen as one node of its dataflow region (convex, with all its incoming values as inputs and all its outgoing values as distinct outputs, used in the same region) and a valid replacement that is closed and has no order edges at its input and output, then the Hugr after the rewrite is valid.", "quantifier": "all valid Hugrs, all separable subgraphs, all valid replacements, all choices of unused indices for the copies", "why_tests_cant": "validity is a statement about every node and link of graphs of any size; copied, discarded, linear and handed-through wires and links across the boundary combine in unboundedly many ways", "anchors": ["hugr-core/src/hugr/patch/simple_replace.rs: SimpleReplacement::try_new, PatchHugrMut::apply_hugr_mut", "hugr-core/src/hugr/views/sibling_subgraph.rs: SiblingSubgraph", "hugr-core/src/hugr/validate.rs"]}
{"id": "C61", "title": "A subgraph is accepted exactly if it is a convex part of a dataflow region with the right boundary", "statement": "For nodes of a dataflow region of a valid Hugr, SiblingSubgraph::try_from_nodes succeeds exactly if only values and calls cross the boundary of the nodes and no path leaves them and comes back; the result has these nodes, and as boundary exactly the ports with links across. SiblingSubgraph::try_new with a boundary finds exactly the nodes connected with it without crossing it, and accepts them exactly if the boundary is right and they are convex; validate decides the same. What try_from_nodes makes of leaf nodes can be replaced, and the result is valid.", "quantifier": "all valid Hugrs, all lists of nodes of a dataflow region, all boundaries", "why_tests_cant": "paths out of a set of nodes and back may be of any length, and sets of nodes, disconnected parts, shared sources and repeated ports combine in unboundedly many ways", "anchors": ["hugr-core/src/hugr/views/sibling_subgraph.rs: SiblingSubgraph::try_from_nodes, try_new, try_new_with_checker, validate, validate_subgraph, get_boundary_from_nodes, drain_function_calls, make_pg_subgraph"]}
{"id": "C62", "title": "Types survive being written as JSON and read back", "statement": "A type, type argument, type parameter or polymorphic function type written as JSON is read back as the same value, exactly if it contains no NaN and no infinity and, when read from text, its form nests fewer than 128 arrays and objects. Different values have different forms. Whatever document is read, the result has right cached bounds, normalised sums and numbers in range, and writing and reading it again changes nothing. The order of the members of objects and members with unknown names do not matter. A row variable is refused where a type is expected.", "quantifier": "all types, terms and function types; all JSON documents", "why_tests_cant": "types and terms nest to any depth and every tag, short form and untagged alternative can occur inside every other; reading must be right for every document", "anchors": ["hugr-core/src/types/serialize.rs: SerSimpleType, TypeParamSer, TypeArgSer, TermSer, ArrayOrTermSer, base64", "hugr-core/src/types.rs: TypeBound, SumType, TypeBase, From<SumType> for TypeBase", "hugr-core/src/types/type_param.rs: Term, TermVar, UpperBound", "hugr-core/src/types/custom.rs: CustomType", "hugr-core/src/types/poly_func.rs: PolyFuncTypeBase"]}
{"id": "C63", "title": "Types and signatures survive export to and import from hugr-model", "statement": "A valid polymorphic function type, and every valid type and term in the scope of its parameters, is the same after export to the exchange format hugr-model and import from it, if it contains nothing the format cannot express: no upper bound on a number parameter, no restriction to copyable types except on a parameter itself, no alias, no name that is not an identifier. Two such function types with the same export are equal. Whatever is imported, from any module, is something the format can express, so that a second export and import of a valid result changes nothing.", "quantifier": "all polymorphic function types, types and terms; all symbols of a module in the exchange format", "why_tests_cant": "types and terms nest to any depth, variables refer to parameters whose types mention other variables, and import must be right for every module, not only for exported ones", "anchors": ["hugr-core/src/export.rs: export_poly_func_type, export_type, export_term, export_type_row_with_tail", "hugr-core/src/import.rs: import_poly_func_type, import_term_with_bound, import_type, import_type_row, import_closed_list, import_custom_name, match_symbol", "hugr-model/src/v0/table/mod.rs: Term, VarIndex"]}
{"id": "C64", "title": "Constants have the type they report", "statement": "A sum constant is accepted exactly when its tag selects a row of types and there is one value for each of them reporting that type; otherwise the error names the cause. Every constant built with the constructors (sum, tuple, some, none, unit, unit_sum, booleans, either, function, valid extension constants and lists), in any nesting, has the type it reports all the way down, and on well-typed values the infallible constructors never panic. A tuple constant unpacks to its values. For constants with well-typed parts, validate accepts exactly the well-typed ones. Equal constants report equal types and hash alike, and hashing that fails leaves the hasher untouched. A written sum constant reads back.", "quantifier": "all constants of any depth, all sum types, tags and lists of values, all libraries of extension constants, all hash functions", "why_tests_cant": "constants nest to any depth and mix extension constants, functions, sums in two representations and lists; tests cover a few literals", "anchors": ["hugr-core/src/ops/constant.rs Value::sum, Value::tuple, Value::validate, Value::get_type, Value::try_hash", "hugr-core/src/types/check.rs SumType::check_type", "hugr-core/src/ops/constant/serialize.rs SerialSum", "hugr-core/src/extension/prelude.rs const_left_tuple, const_right_tuple"]}
{"id": "C65", "title": "Folding logic, tuple and list operations agrees with their meaning", "statement": "Whenever the constant folder of a logic operation gives a result from the constants known for some of the inputs, in any order, it is the entry of the truth table for the actual inputs, whatever the unknown inputs are; with all inputs known it always gives a result. Folding MakeTuple and UnpackTuple on all inputs are inverse. Folding the list operations on list, index and element constants gives, on the declared ports, constants of the declared output types that are what the operation does on the list; with an unknown input nothing is folded.", "quantifier": "all operations of the three extensions, all subsets and orders of known inputs, all lists of any length with elements of any type, all indices", "why_tests_cant": "folders are called with every subset of known inputs during constant folding; tests call them with all inputs and small literals", "anchors": ["hugr-core/src/std_extensions/logic.rs ConstFold for LogicOp, read_inputs", "hugr-core/src/extension/prelude.rs ConstFold for TupleOpDef", "hugr-core/src/std_extensions/collections/list/list_fold.rs", "hugr-passes/src/const_fold.rs ConstFoldContext::interpret_leaf_op"]}
{"id": "C66", "title": "Folding a conversion gives the value of the conversion", "statement": "Folding a conversion between integers, floats, booleans, usize and strings gives the constant that the operation would compute: booleans and one-bit integers, and usize and 64-bit integers, convert into each other without loss; strings are the decimal form of the unsigned or signed reading; an integer becomes the nearest float, ties to even; a float truncates to its integral part when that fits the width and to the error value otherwise.", "quantifier": "every constant, width, float value and build mode", "why_tests_cant": "There are 2^64 integers and as many floats; the interesting cases are boundaries and ties that sampled tests miss.", "anchors": ["hugr-core/src/std_extensions/arithmetic/conversions/const_fold.rs: fold_trunc, TruncU, TruncS, ConvertU, ConvertS, IToBool, IFromBool, IToStringU, IToStringS, IToUsize, IFromUsize", "hugr-core/src/std_extensions/arithmetic/conversions.rs: ConvertOpDef"]}
{"id": "C59", "title": "Replacing a subgraph by one that does the same keeps what functions return", "statement": "After a SimpleReplacement whose replacement does the same as the subgraph (for the same values on the boundary inputs and the same behaviour of called functions, the same values are possible on the boundary outputs), every function of the Hugr returns exactly what it returned before; when the replacement only allows more, or only less, results are only gained, or only lost.", "quantifier": "every valid Hugr, every convex subgraph and valid replacement accepted by try_new, every interpretation of extension operations, every function, every argument list, every result of every terminating execution", "why_tests_cant": "equivalence has to hold for all interpretations of the operations, all arguments and all executions, including loops and recursive functions that pass through the rewritten region", "anchors": ["hugr-core/src/hugr/patch/simple_replace.rs: SimpleReplacement::try_new, apply, linked_replacement_inputs, is_valid_rewrite", "hugr-core/src/hugr/views/sibling_subgraph.rs: SiblingSubgraph, signature"]}
{"id": "C67", "title": "UntuplePass keeps what functions return and removes every unpacking of a tuple made beside it", "statement": "Running UntuplePass (its default, non-recursive mode) on a region of a valid Hugr gives a valid Hugr in which each function returns exactly what it returned before; all UnpackTuple nodes of the region fed by a MakeTuple of the region are gone, no other node except MakeTuple nodes is removed or added, and the rewrites found at the start can all be applied one after the other.", "quantifier": "every valid Hugr, every region in it, every interpretation of extension operations, every function, every argument list, every result of every terminating execution", "why_tests_cant": "the pass computes all rewrites on the original Hugr and applies them in turn, so each must survive the others in every arrangement of overlapping boundaries; equivalence ranges over all executions", "anchors": ["hugr-passes/src/untuple.rs: UntuplePass::run, find_rewrites, make_rewrite, remove_pack_unpack", "hugr-core/src/hugr/patch/simple_replace.rs: SimpleReplacement", "hugr-core/src/extension/prelude.rs: MakeTuple, UnpackTuple"]}
{"id": "C68", "title": "The binary format keeps packages", "statement": "Writing a package of the model to the binary format and reading it back gives the same package, different packages have different encodings, everything that can be read can be written again without a panic and reads back the same, and a message is rejected for its version exactly if its major version differs or its minor version is newer than that of the library.", "quantifier": "every package: any number of modules, nodes, regions and terms, any ids, names, literals and metadata; every message for the reading side", "why_tests_cant": "the encoding stores alternatives of a union in the same bytes and shifts optional ids by one, so a clash of fields shows only for particular combinations of values", "anchors": ["hugr-model/src/v0/binary/write.rs: write_to_vec, write_package, write_operation, write_symbol, write_term", "hugr-model/src/v0/binary/read.rs: read_from_slice, read_package, read_symbol, read_term", "hugr-model/src/capnp/hugr_v0_capnp.rs: accessors", "hugr-model/capnp/hugr-v0.capnp"]}
{"id": "C69", "title": "Resolving names loses nothing", "statement": "Resolving the names of a module gives tables in which every variable refers to the parameter of that name of the innermost node with parameters, every symbol to the node that introduces it in the innermost enclosing region, or else to an import added at the end of the root, and every link to the number of its name in the closed region; viewing the tables gives back the module with links renamed one to one inside each closed region and one import per free symbol; resolution fails with an error exactly for modules that are not well scoped, and what the view gives is well scoped again.", "quantifier": "every module with names: any nesting of regions and terms up to 65535 levels of scopes, any names, shadowing, forward references and links; every order in which the imports are drained", "why_tests_cant": "shadowing, forward references, links that are shared between nested regions and sharing of equal terms interact; a wrong scope exit shows only for particular nestings", "anchors": ["hugr-model/src/v0/ast/resolve.rs: Context, resolve_region, resolve_node, resolve_symbol_name, finish", "hugr-model/src/v0/ast/view.rs: View implementations", "hugr-model/src/v0/ast/mod.rs: Module::resolve", "hugr-model/src/v0/table/mod.rs: Module, as_ast", "hugr-model/src/v0/table/view.rs: View"]}
{"id": "C70", "title": "Building a function gives the Hugr of the program", "statement": "Building a function call by call (operations, constants, inputs and outputs that are added later, order, outputs) and finishing it succeeds exactly if the program is well typed; a call fails only if a value that cannot be copied is used twice; the Hugr that is built has one node per operation, the name and type of the program, and its function returns exactly what the program computes, whatever the operations mean; it does not matter when inputs, outputs and order are added. A wire to a node inside a sibling of its source is connected with the order that makes it valid, a wire to another block is valid exactly if the block of its source dominates that of its target, and a wire is refused exactly if its value cannot be copied or the graphs are not related.", "quantifier": "every sequence of builder calls whose wires and nodes were returned by earlier calls; every meaning of operations; every partial Hugr and every wire in it", "why_tests_cant": "the wires, types and sequences of calls are unbounded; adding an input after order edges were set moves links, and which ancestor gets an order edge depends on the nesting of both ends", "anchors": ["hugr-core/src/builder/build_traits.rs: Container, Dataflow, add_node_with_wires, wire_up_inputs, wire_up", "hugr-core/src/builder/dataflow.rs: FunctionBuilder, DFGBuilder, add_input, add_output, update_parent_signature", "hugr-core/src/hugr/hugrmut.rs: add_other_edge, connect", "hugr-core/src/builder.rs: BuilderWiringError"]}
{"id": "C71", "title": "Replacing extension types inside types", "statement": "Transforming a valid type or argument with a type transformer gives exactly the type in which the outermost extension types to be replaced are replaced and all bounds recomputed, and fails exactly if a replacement fails or some arguments no longer fit; the answer that nothing changed can be relied on; the result is valid if the replacements are; no type to be replaced is left at any depth; it never panics on a valid type; it never fails if no copyable type is replaced by a linear one; and transforming again changes nothing.", "quantifier": "every transformer, every set of type definitions, every type and argument of any depth", "why_tests_cant": "types nest without bound, and whether the arguments of an enclosing type still fit depends on the bounds recomputed below", "anchors": ["hugr-core/src/types.rs: TypeTransformer, Transformable, TypeBase::transform, SumType::transform", "hugr-core/src/types/type_param.rs: Term::transform", "hugr-core/src/types/type_row.rs: TypeRowBase::transform", "hugr-core/src/types/signature.rs: FuncTypeBase::transform"]}
{"id": "C72", "title": "Peeling a tail loop", "statement": "Peeling a tail loop of a valid Hugr succeeds without panic and gives the Hugr in which the loop is a graph of its body followed by a conditional on the body's first output, which either goes on with a copy of the loop or stops; nothing else changes and the result is valid; every function returns the same results for the same arguments, whatever the number of iterations; a node that is not a tail loop is refused.", "quantifier": "every valid Hugr, every tail loop in it at any depth, every number of iterations, every behaviour of extension operations and constants, every argument", "why_tests_cant": "The loop body is an arbitrary nested graph with links from outside, and the equivalence is about all runs, of any number of iterations; tests peel a few fixed loops and check their shape.", "anchors": ["hugr-core/src/hugr/patch/peel_loop.rs: PeelTailLoop::apply_hugr_mut, verify", "hugr-core/src/hugr/hugrmut.rs: copy_descendants, add_node_after, add_node_before, set_parent"]}
{"id": "C73", "title": "Small patches: unused constants and identities", "statement": "Removing the load of a constant whose value is not used, removing a constant that is never loaded, and inserting an identity on the edge into an input that takes a value succeed on a valid Hugr, change nothing but the nodes and edges they speak of, give a valid Hugr and leave what every function returns unchanged; they are refused exactly where the node is of another kind, the value is used or the port takes no value, and a refused patch leaves the Hugr as it was.", "quantifier": "every valid Hugr, every node and port, at any depth, every behaviour of other operations, every function and argument", "why_tests_cant": "The claim is about all surrounding graphs, including values used across regions and order edges, and about the results of all runs; tests apply each patch to one small graph and count nodes.", "anchors": ["hugr-core/src/hugr/patch/consts.rs: RemoveLoadConstant, RemoveConst", "hugr-core/src/hugr/patch/insert_identity.rs: IdentityInsertion::apply_hugr_mut"]}
{"id": "C74", "title": "Turning a control-flow graph into a dataflow graph", "statement": "Normalising a control-flow graph whose entry block always goes to the exit and to which nothing goes back turns it into a dataflow graph: the nodes of the entry block stay, the tuple it outputs first is unpacked into the outputs of the graph, all other blocks go and nothing else changes; the result is a valid Hugr and every function returns what it did before; a control-flow graph that is not of this form is not turned into a dataflow graph.", "quantifier": "every valid Hugr, every control-flow graph in it at any depth, every content of the entry block, every behaviour of extension operations and constants, every function and argument", "why_tests_cant": "The block has an arbitrary nested graph with edges from outside, order edges and unreachable blocks beside it, and the equivalence is about the results of all runs; tests normalise a few fixed graphs and look at their shape.", "anchors": ["hugr-passes/src/normalize_cfgs.rs: normalize_cfg, merge_basic_blocks, take_inputs, wire_unpack_first, unpack_before_output, tuple_elems"]}
{"id": "C75", "title": "Moving blocks of a control-flow graph to a graph of their own", "statement": "Outlining a set of basic blocks of a control-flow graph succeeds exactly if control comes into the set at one block only and leaves it by one link only. Then the blocks are in a control-flow graph of their own, in a new block that takes their place: links from outside to the entry go to the new block, the link that leaves goes to the exit of the inner graph, the new block goes where that link went, and is the first block if the entry was; nothing else changes. Every function returns what it did before, and the result is a valid Hugr.", "quantifier": "every valid Hugr, every set of basic blocks in it, every behaviour of extension operations and constants, every function and argument", "why_tests_cant": "Any shape of control flow inside and outside of the set is possible, with loops, unreachable blocks and values used across blocks; the claim is about the results of all runs, tests outline a few fixed graphs.", "anchors": ["hugr-core/src/hugr/patch/outline_cfg.rs: OutlineCfg::new, compute_entry_exit, apply_hugr_mut"]}
{"id": "C76", "title": "Moving blocks out of a control-flow graph", "statement": "When normalizing a control-flow graph moves its last block into a dataflow graph after it, or its entry block before it, the result is a valid Hugr: the block's contents are in the new dataflow graph, which takes what the block took from the control-flow graph and gives the results; the tuple that the block outputs first is unpacked, what used the results of the control-flow graph uses those of the new graph, and nothing else changes.", "quantifier": "every valid Hugr whose entrypoint is a control-flow graph, with any number of blocks, any loops, nested graphs, constants and order edges", "why_tests_cant": "The tests normalize a handful of graphs; whether values from outside the block, unreachable blocks and different numbers of inputs and results are handled right depends on all combinations of these.", "anchors": ["hugr-passes/src/normalize_cfgs.rs: normalize_cfg, unpack_before_output, take_inputs, wire_unpack_first"]}
{"id": "C77", "title": "What a replacement has to be like", "statement": "The check of a replacement of sibling nodes accepts exactly those where: the nodes to be removed are different children of one node of the sort of the root of the replacement; empty containers of the replacement adopt different nodes that would be removed and are not inside each other; the new edges are between nodes that stay and nodes of the replacement other than its root, at ports that exist and are of the kind of the edge; and a new value or static edge into a node that stays takes the place of the only link there, which comes from what is taken out. The check never panics, and the nodes it takes to be removed are exactly those in the listed nodes that are not in an adopted node.", "quantifier": "every Hugr, every replacement with any removed nodes, adoptions, inserted Hugr and edges of the four kinds", "why_tests_cant": "The tests build a few replacements by hand, most with one thing wrong; that nothing else is let through, and nothing right is refused, is about all combinations of nested adoptions, removed nodes and edges.", "anchors": ["hugr-core/src/hugr/patch/replace.rs: Replacement, PatchVerification::verify, check_parent, get_removed_nodes, check_src, check_tgt, check_existing_edge", "hugr-passes/src/normalize_cfgs.rs: merge_basic_blocks, mk_rep"]}
{"id": "C78", "title": "A replacement that is accepted can be applied", "statement": "If the check of a replacement accepts it, then applying it to the same Hugr succeeds, as the documentation of the check promises: the listed nodes are removed with what is in them, except that the children of adopted nodes are now in their adopters; the nodes of the replacement are where the removed nodes were; the new edges are there; nothing else changes.", "quantifier": "every valid Hugr and every accepted replacement, whatever indices the new nodes get and whatever order the removed nodes are gone through in", "why_tests_cant": "The tests apply a few hand-made replacements; whether check and application agree depends on all combinations of edges, adoptions and removed nodes, and on the order of iteration of a hash set.", "anchors": ["hugr-core/src/hugr/patch/replace.rs: Replacement, PatchHugrMut::apply_hugr_mut, transfer_edges, PatchVerification::verify", "hugr-core/src/hugr/patch.rs: PatchVerification::verify"]}
{"id": "C79", "title": "Merging basic blocks puts one after the other", "statement": "If a block of a control-flow graph goes only to one other block, and nothing else goes there, then merge_basic_blocks replaces the two by one block with the inputs of the first and the outputs of the second, where what was in the first block comes before what was in the second: the sum that the first block ended with is unpacked and passed on with its other outputs. Edges into the first block now go into the new block, edges out of the second now come from it, and edges from the second back to the first are edges from the new block to itself. The new block is where the first was among the blocks, so an entry block stays the entry block. Nodes and links elsewhere are not changed, and nothing panics.", "quantifier": "every valid Hugr with a control-flow graph as entrypoint, every two blocks in it of this form, whatever indices the new nodes get and whatever order the removed nodes are gone through in", "why_tests_cant": "The tests merge blocks in a few small graphs with fixed types. The replacement depends on the rows of types, on the numbers of edges into and out of the blocks and on edges back, and it is unwrapped without a check.", "anchors": ["hugr-passes/src/normalize_cfgs.rs: merge_basic_blocks, mk_rep, wire_unpack_first", "hugr-core/src/hugr/patch/replace.rs: Replacement", "hugr-core/src/hugr.rs: Hugr::new_with_entrypoint"]}
