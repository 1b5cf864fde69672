# Formal model of CQCL/hugr in Lean 4

This directory holds a machine-checked model of parts of the HUGR code base
(`/repo`, Rust) and proofs of the properties listed in `properties.jsonl`.
`MANIFEST.json` maps each property to the theorems proved about it.
`seeded/LOG.jsonl` records the wrong programs the theorems were tested against.

## Layout

Every area is a directory `lean/Verif/<Area>/` with up to four kinds of module:

* `Model.lean` (or the name of the modelled thing): the functions of the code,
  transcribed one by one. Each definition cites the file and lines it models,
  and says where it simplifies.
* `*Spec.lean`: a small specification, written without using the model's helpers.
* `*Lemmas.lean`: auxiliary lemmas.
* `*Props.lean`, `*Findings.lean`: the property theorems, named `Cxx_...`, with
  a concrete non-vacuity example next to each.

`lean/Verif.lean` imports everything.

## Modelling conventions

* Rust panics (`unwrap`, `expect`, `assert!`, overflow) are explicit: functions
  return `Option`/a dedicated result type with a `panic` constructor
  wherever a panic is reachable. Arithmetic that behaves differently in debug
  and release builds takes the build mode as a parameter.
* `HashMap`, `BTreeMap`, `HashSet`, `IndexMap` are association lists or finite
  functions; where iteration order is unspecified in Rust the model either
  quantifies over it or the result is shown not to depend on it.
* `u64`/`i64` are `Nat`/`Int` with explicit wrap/overflow.
* Sharing (`Arc`, `Cow`, `Weak`) is value equality.
* External crates (`portgraph`, `petgraph`, `indexmap`, `pest`, `ascent`,
  `relrc`, `regex`, `serde_json`, ...) are modelled by their documented
  behaviour: their source is not available here, so they are part of the
  trusted modelling step. Where they leave something open (the index of a new
  node, the order of a hash map) the model quantifies over it.
* Loops that the code runs until a worklist is empty are run with fuel; the
  theorems show that the fuel given is always enough.

## Trusted base

* Lean 4.33.0's kernel and the three standard axioms `propext`,
  `Classical.choice`, `Quot.sound`. No other axioms; no `sorry`, `admit`,
  `native_decide`, `bv_decide`, `implemented_by`, `unsafe`. The axioms of each
  theorem are listed at the end of this file.
* The transcription of the Rust code to Lean (by reading; the code cannot be
  run here). Every definition cites its source lines.
* The specifications in the `Spec` files and in the statements themselves.
* The behaviour of external crates, as said above.

## What is modelled, and what is not

| area | code | not modelled |
|------|------|--------------|
| `Types` | `types.rs`, `types/{type_param,type_row,poly_func,signature,custom}.rs`, `extension/type_def.rs`: bounds, sums, equality and hashing, kinds, supertypes, checking, validation, substitution, instantiation, transformation, list and tuple parts; `types/serialize.rs`: the JSON form; types, terms and function types in `export.rs` and `import.rs` | the text of JSON documents (`serde_json`), nodes, operations, constants and metadata in export and import, row-variable polymorphic signatures of operations, display, `prop` arbitrary instances |
| `Ops` | `ops.rs`, `ops/{tag,module,dataflow,controlflow,sum,constant,custom}.rs`: tags, signatures, ports, inner signatures, substitution | the values of constants (only their type), unresolved opaque operations, descriptions, `NamedOp` |
| `Ident` | `hugr/ident.rs` | Unicode classes (parameters) |
| `Registry` | `extension.rs`: `ExtensionRegistry` | contents of extensions; resolution of references (`extension/resolution`) |
| `Envelope` | `envelope/header.rs` | payloads, compression (`envelope/{reader,writer}.rs`) |
| `Graph` | `hugr.rs`, `hugr/{hugrmut,internal,views,serialize,linking}.rs`: construction and mutation, insertion, canonical order, serialisation, linking by node | views of parts (`rerooted`, `sibling_subgraph`), `petgraph` adaptors, `mermaid`/`dot` |
| `Validate` | `hugr/validate.rs`, `ops/validate.rs` | validity of constant values (parameter), visibility of functions (parameter) |
| `IntFold` | `std_extensions/arithmetic/int_types.rs`, `int_ops/const_fold.rs`, signatures of `int_ops.rs`, `conversions/const_fold.rs` | floating point arithmetic folders; finite floats in conversions are rationals, without the sign of zero (logic, tuple and list folders: see `Consts`) |
| `Consts` | `ops/constant.rs`, `ops/constant/serialize.rs`, `types/check.rs`, `std_extensions/logic.rs`, `std_extensions/collections/list.rs` and `list_fold.rs`, tuple, no-op and `load_nat` folders of the prelude | extension constants other than `usize` and lists (parameter), Hugrs in function constants (parameter), JSON of constants except the sum layer, array constants |
| `Dataflow` | `hugr-passes/src/dataflow/{partial_value,value_row,datalog,results}.rs`, `dataflow.rs`, `const_fold.rs`, `const_fold/value_handle.rs` | the folders of the extensions are a parameter (those for integers are in `IntFold`); type arguments of loaded functions; the filter of results by descendants of the entrypoint |
| `Patch` | `hugr-core/src/hugr/patch/{inline_dfg,inline_call,peel_loop,consts,insert_identity,outline_cfg}.rs`, `hugr-passes/src/normalize_cfgs.rs` (`normalize_cfg`; of `merge_basic_blocks` the merging of two blocks, without the inlining and the loop), `patch/replace.rs` (`Replacement`), `patch/simple_replace.rs` (`try_new`, `is_valid_rewrite`, `apply_hugr_mut`), `signature`, `get_parent`, `try_new`, `try_from_nodes`, `validate` and what they use in `views/sibling_subgraph.rs` (without `from_node`, `set_outgoing_ports`, `extract_subgraph`, intervals), `copy_descendants` in `hugrmut.rs`, `hugr-passes/src/{inline_dfgs,inline_funcs}.rs` (`tarjan_scc` by its documentation), `hugr-passes/src/untuple.rs` (not `UntupleRecursive::Recursive`, which uses the convexity checker of one region for all); the semantics of Hugrs that rewrites are judged by | the node ids that the rewrite returns; the other rewrites |
| `Passes` | `hugr-passes/src/{dead_code,dead_funcs,force_order,call_graph}.rs`, `nest_cfgs.rs`: `region_blocks` and the cycle classes' precondition checks | the other passes, the cycle-equivalence algorithm |
| `Persistent` | `hugr-persistent/src/{persistent_hugr,state_space,commit}.rs`: the commit store and histories | the graphs in the commits, walkers, `apply_all` |
| `Scope` | `hugr-model/src/v0/scope/{link,symbol,vars}.rs` | |
| `Text` | `hugr-model/src/v0/ast/{parse,print}.rs`, `hugr.pest`, `v0/mod.rs` (literals) | the layout engine of the printer (any layout is allowed), function constants, `ast/resolve.rs` (see `Resolve`; binary format: see `Binary`) |
| `Binary` | `hugr-model/src/v0/binary/{read,write}.rs`, `v0/table/mod.rs` (data), offsets of `capnp/hugr_v0_capnp.rs` | segments, packing and limits of Cap'n Proto messages; streams |
| `Resolve` | `hugr-model/src/v0/ast/{mod,resolve,view}.rs`, `v0/table/{mod,view}.rs` | arenas (lists), hashes of terms (the tables of known terms are searched by equality, floats by their number), the order in which the map of imports is drained (any permutation) |
| `Builder` | `hugr-core/src/builder/build_traits.rs` (`add_dataflow_op`, `add_constant`, `load_const`, `set_order`, `set_outputs`, `wire_up`), `builder/dataflow.rs` (`FunctionBuilder`, `add_input`, `add_output`, `finish_hugr`) | the sets of extensions used; builders of conditionals, loops, control-flow graphs and modules; the programs of `C70_finish_iff` use extension operations, tags, constants and loads of constants, without nested graphs and calls |
| `SumLayout` | `hugr-llvm/src/sum/layout.rs` | the rest of `hugr-llvm` |

Not modelled at all: `hugr-core/src/builder` except functions, nested wires and order (see `Builder`), `hugr-core/src/{import,export}.rs` except types and terms, `hugr-cli`, `hugr-py`,
and the code generation of `hugr-llvm`.

## Plan per property

| id | model | proof |
|----|-------|-------|
| C01 | `Types`: bounds, types as a nested inductive | induction on types; lattice laws by cases |
| C02 | `Types`: sum types in compact and general form | refinement to the list of rows |
| C03 | `Types`: `validate`, `substitute` on terms, types, rows | mutual induction (substitution lemma) |
| C04 | same | mutual induction; the `TupleType` arm is wrong in the code, so the full statement is refuted and a partial theorem excludes it |
| C05 | same | mutual induction with list-normalisation lemma |
| C06 | `Types`: `instantiate`, `check_term_types` | unfolding plus C03 |
| C07 | `Types`: `is_supertype`, `check_term_type` | induction on kinds; reflexivity fails for some constructors, so refuted in full and proved for kinds |
| C08 | `Types`: list/tuple parts | denotational semantics of list terms, induction |
| C09 | `Ops`: the table of immediate supersets | the table is finite: kernel decision over the whole table, lifted to a reachability statement |
| C10 | `Ops`: counts and kinds per op shape | a table of port kinds per operation as the specification; cases, arithmetic over all counts |
| C11 | `IntFold`: `ConstInt` | arithmetic on `Nat`/`Int` |
| C12–C15 | `IntFold`: each folder | arithmetic modulo 2^N; refutation witnesses where the code is wrong |
| C16–C19 | `Dataflow`: abstract values, join, meet, comparison | induction on nested values; concretisation semantics in the specification |
| C20–C23, C26 | `Graph`: node store with hierarchy, ports, links, metadata | invariant by induction over operations |
| C24 | `Graph`: `canonicalize_nodes` | loop invariant on the in-place permutation |
| C25 | `Graph`: serialisation | round trip through canonical order |
| C27–C29 | `Scope`: three tables over index maps | refinement to a stack of scopes |
| C30–C31 | `Registry` | refinement to a fold over the history; invariant on the flag |
| C32 | `Envelope`: header bytes | round trip + converse |
| C33 | `Text`: string literals | induction on the string |
| C34 | `Text`: token-level printer and grammar | induction on terms, ordered choice explicit |
| C35 | `Passes`: dead code elimination | worklist invariant: result is the least closed set |
| C36 | `Passes`: dead function removal | reachability in the call graph |
| C37 | `Passes`: forcing an order | worklist invariant; for valid Hugrs also that the result is valid and that order links do not matter to the results of functions |
| C38 | `Passes`: blocks of a region | worklist invariant |
| C39 | `Persistent` | invariant over histories |
| C40 | `SumLayout` | counting argument |
| C41 | `Ident` | induction on the string |
| C42 | `Graph`: linking by node | the insertion theorems (C23, C45) followed by an invariant over the replacements |
| C43 | `Ops`: substitution in operations | cases per operation, with C03 for types |
| C44 | `Ops`: case and successor rows, inner signatures | cases |
| C45 | `Graph`: insertion of views | correspondence of the copied forest with the original |
| C46 | `Text`: packages, modules, nodes, symbols | mutual induction over nodes and regions, ordered choice explicit |
| C47 | `Validate`: the whole validator | every check is shown equivalent to one rule; topological sort and dominators by reachability, traversals by fuel over ancestors |
| C48 | `Dataflow`: the datalog rules as functions from states to facts, any schedule | operational semantics of Hugrs; invariant: every wire of an activation is described by the finished state |
| C49 | `Dataflow`: constant folding (`ConstFold`) | the analysis (C48) on value handles; the rewritten Hugr is described exactly (`Rewired`) and simulates the old one |
| C50 | `Dataflow`: executions across dead code elimination (`DeadCodeSim`) | C35 says what is left; simulation in both directions; composed with C49 for the whole folding pass |
| C51 | `Patch`: `InlineDFG` step by step, with panics | loop invariants over ports: the multiset of links after each loop; `Inlined` says what is left |
| C52 | `Patch`: a big-step semantics (`Runs`) of regions, loops, control flow and calls | simulation in both directions between the Hugr before and after |
| C53 | `Patch`: validity (C47) after inlining | the code is wrong about order links: refutations; each rule of validity, acyclicity included, is followed through `Inlined`, which gives the exact condition (`OrderFits`) for the result to be valid |
| C54 | `Patch`: `copy_descendants` and `InlineCall`, with panics | invariants of the copying loops; `Copied` and `Emptied` say what is left; two ways in which the code goes wrong are shown |
| C55 | `Patch`: `Runs` before and after | a general simulation (`Cover`): every node of the new Hugr stands for one of the old, and its body for one body; calls may be unfolded |
| C56 | `Patch`: `inline_acyclic` with its queue, the module graph and `InlineCall` | loop invariant; a budget for every node that inlining does not change bounds the rounds; validity and results step by step from C54 and C55 |
| C57 | `Patch`: `InlineDFGsPass` over `InlineDFG` | induction over the nodes to inline with C51 to C53; that links stay in their regions is preserved; the hierarchy by an inductive description of where nodes end up |
| C58 | `Patch`: `SimpleReplacement`, the signature of a `SiblingSubgraph`, `insert_forest` of the replacement | C23 for the copy, then the multiset of links after each loop; `Replaced` says what is left |
| C59 | as C58, with the executions of C57 (`Runs`): `SubMeans` says what the nodes of a subgraph may do, `BodyMeans` what the replacement may do | an execution of the old Hugr gives one of the new and conversely: the nodes outside run unchanged, the copied nodes run as their originals, and the region itself swaps one for the other |
| C60 | as C58, with `Valid` of C47 | rule by rule: counting links per port in the multiset of links, convexity for the absence of cycles; findings for what `try_new` accepts and should not |
| C61 | the constructors and checks of `SiblingSubgraph` function by function; `portgraph`'s subgraph and convexity check by their documentation | each check as a statement about links; depth-first search finds what is connected; nodes not connected with the boundary do not matter for convexity; composed with C60 |
| C62 | JSON documents as trees; writers and readers of `types/serialize.rs` and of the derived `serde` impls, base64 included; recursion of the reader bounded by the depth of the document, proved enough | induction over types and terms; induction over the reader for well-formedness; two documents are alike if no part reader can tell them apart |
| C63 | terms of `hugr-model` as trees with symbols by name; export of types, terms and function types; import with the variables of a symbol, where the declaration of a variable is imported again at each use (bounded by a number of nested uses, any large enough number gives the result) | induction over types and terms, with the number of nested declarations as the bound; induction over the imported terms for the converse |
| C64 | constants as trees over abstract extension constants and function Hugrs, with `usize` and list constants spelled out; the checks, constructors, equality, hashing (as the sequence fed to the hasher) and the serialised form of sums | a typing relation independent of the checks; induction over it, over the constructors and over values |
| C65 | the folders of logic, tuple, no-op, `load_nat` and list operations over these constants, called with the constants of some inputs in any order | sorting by port yields all ports in order when all are known; a relation for what each list operation does; case analysis |
| C66 | `IntFold`: the folders of the conversions; floats as rationals, rounding and saturation of casts as the Rust reference gives them | relations for truncation and for rounding to nearest even; arithmetic |
| C67 | `UntuplePass` as a function of the Hugr and of the validation context: rewrites found first, applied in turn with the model of C58 | the replacement means the same as the subgraph (C59); applying one rewrite keeps the subgraph, boundary and replacement of each other one possible; panics by witnesses |
| C68 | `Binary`: tables of the model, structs with data and pointer sections, writing and reading field by field with the offsets of the generated accessors | reading a field after writing it or another one; round trip by structure; panics and losses by witnesses |
| C69 | `Resolve`: modules with names, the resolver as a state machine over tables and the scope tables of `Scope`, the view with fuel | a relation between names and tables, shown by mutual induction with an invariant on the scopes and stable under growth of the tables; the view inverts the relation; scoping is decided exactly |
| C70 | `Builder`: the calls on a builder over the `Graph` model, with a program (inputs, lines, outputs) as the specification of a sequence of calls | the Hugr after any sequence of calls is written out up to the sequence of links; it is valid exactly if the program is well typed (via C47), and its runs are the runs of the program, by induction on lines; `wire_up` by the chain of ancestors |
| C71 | `Types/Transform`: `transform` on terms, types and rows with failure and panic explicit; a transformer is any function from extension types to an outcome | the specification is a relation (`TyReplaced`) that mentions neither the flag nor the order of the work; induction over the syntax of types |
| C72 | `Patch/Peel`: `PeelTailLoop` step by step over the `Graph` and `Patch/Copy` models, the indices of new nodes given | the steps are composed into a description of the result (`LoopPeeled`); the runs of the two Hugrs simulate each other, an iteration of the loop being the graph and each later one an iteration of the copy; validity of the result rule by rule |
| C73 | `Patch/Remove`, `Patch/Identity`: `RemoveLoadConstant`, `RemoveConst`, `IdentityInsertion` over the `Graph` model | one relation (`Extra`) between a Hugr and the Hugr with one more childless node, by which runs of the one are runs of the other; validity rule by rule; the variables in scope are the same at both ends of a value edge |
| C74 | `Patch/CfgToDfg`: the part of `normalize_cfg` for control-flow graphs whose entry block goes to the exit, step by step over the `Graph` model; which blocks `merge_basic_blocks` merges, but not the merging | the steps are composed into a description of the result (`AsDfg`); a run of the entry block is a run of the dataflow graph and the other way round; validity rule by rule. Constants that are children of the control-flow graph are excluded: the code panics on them or removes them, see Findings |
| C75 | `Patch/Outline`: `OutlineCfg` step by step over the `Graph` model; the new block is added node by node instead of built apart and inserted | the scan of the blocks is shown to find exactly the sets with one entry and one exit link (`SingleEntryExit`); the steps are composed into a description of the result (`Outlined`); a run through the blocks is a run of the new block and the other way round, where values of blocks that dominate are visible. Validity is shown rule by rule; domination among the blocks that stay and among those moved is traced back to the old graph. That values of moved blocks are not used outside, that the entry is not the entrypoint and that the last block can be reached are hypotheses: without them the code gives an invalid Hugr or panics, see Findings |
| C76 | `Patch/MoveOut`: the parts of `normalize_cfg` that move the entry block before the control-flow graph and the last block after it, step by step over the `Graph` model | the cases where the result is not valid are shown with witnesses, see Findings; for the last block, in the other cases, the steps are composed into a description of the result, from which every validity rule is proved; a lemma on contracted edges gives that there are no new cycles, and dominance between blocks is kept because only the edge to the old exit goes; what functions return is compared by induction on runs, where a run of the control-flow graph is split at the entry to the last block |
| C77 | `Patch/Replacement`: `verify` of `Replacement` in the order of the code, with the walk that collects the removed nodes | the walk keeps a queue of nodes none of which is inside another, and what it gets to from there is described without the queue; the other checks are turned into conditions on the table of ports (C10), links and hierarchy one by one |
| C78 | `Patch/ReplaceApply`: `apply_hugr_mut` of `Replacement` step by step over the `Graph` model, the indices of new nodes and the order of removal given | the cases where an accepted replacement cannot be applied are shown with witnesses, see Findings; in the other cases every step is shown to succeed, by what the steps before leave of hierarchy and links |
| C79 | `Patch/MergeBlocks`: `mk_rep` node by node and link by link, with the part of `Hugr::new_with_entrypoint` for control-flow graphs; it is applied with the model of C78 | validity of the host gives the types and edges of the two blocks; the replacement is built step by step, its nodes and links are written out, it meets the conditions of C77 and C78, and what C78 says of the result is read off node by node |

## Findings

Places where the code does not do what its documentation, the specification or the property says.
Each is a theorem about the model with a concrete witness.


### C03

* `C03_list_concat_misjudged` (Verif/Types/SubstProps.lean): The check of list concatenations compares each list with the kind of the items (`check_term_type`, type_param.rs:660-662): a concatenation of lists of types is rejected as a list of types, and a concatenation of types, which is no list of types, is accepted and then panics when used.
* `C03_list_of_lists_flattened` (Verif/Types/SubstProps.lean): A list of lists of types beginning with a variable is flattened by substitution and loses its kind.
* `C03_row_variable_argument_panics` (Verif/Types/SubstProps.lean): A function type over a row variable panics when the row variable is replaced by another row variable, although the argument has the declared kind and is valid: the code looks for the row variable in the wrong place (`apply_rowvar`, types.rs:750-778).

### C04

* `C04_row_variable_refuted` (Verif/Types/SubstProps.lean): The identity substitution panics on row variables.
* `C04_tuple_kind_refuted` (Verif/Types/SubstProps.lean): Substitution turns every tuple kind into a list kind (type_param.rs:449), even when nothing is substituted.

### C06

* `C06_instantiate_panics` (Verif/Types/SubstProps.lean): Instantiation can panic instead of returning an error or a signature.

### C07

* `C07_supertype_reflexive_refuted` (Verif/Types/Kinds.lean): The documented reflexivity of the supertype relation ("it is reflexive so that every term ... is considered a subtype of itself") fails for constant types and for tuple types given by a concatenation; a variable of such a kind is rejected for its own kind.

### C09

* `C09_none_below_all_refuted` (Verif/Ops/TagProps.lean): (`None`) `None` is documented as the empty set of operations, but it is contained only in itself and in `Any`.

### C10

* `C10_invalid_tag_panics` (Verif/Ops/PortProps.lean): A `Tag` operation whose tag is not a variant makes every port query panic.
* `C10_out_of_range_kind` (Verif/Ops/PortProps.lean): Asking for the kind of a port that does not exist gives the order or control-flow kind whenever the operation has one, instead of nothing.
* `C10_out_of_range_refuted` (Verif/Ops/PortProps.lean): For example an exit block has no outgoing port, yet every offset has a kind.

### C12

* `C12_ipow_refuted` (Verif/IntFold/Props.lean): The 64-bit power is wrong for large exponents: raising `2^64 - 1` (that is, -1) to the power `2^32` is folded to `2^64 - 1`, while the power is 1 modulo `2^64`.
* `C12_ports_ignored_refuted` (Verif/IntFold/TypeProps.lean): Integer folders match constants to inputs by their position in the list and ignore the port numbers: with the constant of port 1 listed first, `isub` computes the difference the wrong way round.

### C13

* `C13_min_always_wrong` (Verif/IntFold/DivProps.lean): The restriction on `-2^63` in the theorems above cannot be dropped for any divisor: whenever `d < 2^63` does not divide `2^63`, folding panics or returns a remainder larger than the divisor.
* `C13_min_panics` (Verif/IntFold/DivProps.lean): In a debug build folding the division of `-2^63` by `2^63 - 1` panics.
* `C13_min_remainder_refuted` (Verif/IntFold/DivProps.lean): The remainder of `-2^63` by 3 is folded to 5, which is not below 3 (and the equation fails: the quotient is the right one, so the remainder should be 1).

### C14

* `C14_rotate_panics` (Verif/IntFold/BitProps.lean): In a debug build rotating a 64-bit constant by a multiple of 64 panics.
* `C14_shift_panics` (Verif/IntFold/BitProps.lean): Shifting a constant by 64 or more is never folded right: a debug build panics, whatever the operands.
* `C14_shift_refuted` (Verif/IntFold/BitProps.lean): And a release build shifts by the amount modulo 64: the 8-bit `1 << 64` is folded to 1 and `1 >> 64` to 1, while both are 0.

### C15

* `C15_checked_types_refuted` (Verif/IntFold/TypeProps.lean): The checked divisions return, for a non-zero divisor, a bare tuple or integer, never the success variant of the sum they declare: the type of the folded constant is wrong for every width, every operand pair outside the exceptional dividend.
* `C15_iabs_panics` (Verif/IntFold/CmpProps.lean): Folding `iabs` of the least value of any width below 64 panics.
* `C15_log_width_truncated` (Verif/IntFold/TypeProps.lean): A type argument outside the legal range is accepted if it is legal modulo 256.
* `C15_narrow_s_refuted` (Verif/IntFold/CmpProps.lean): Signed narrowing from 64 to 64 bits always reports the error, although every value fits.
* `C15_narrow_u_refuted` (Verif/IntFold/CmpProps.lean): Narrowing from 64 to 64 bits: a debug build panics on every value; a release build reports the error for every value but 0, although every value fits.
* `C15_sign_cast_panics` (Verif/IntFold/CmpProps.lean): Folding a sign cast of a constant with the top bit set aborts, in every build.

### C16

* `C16_function_args_refuted` (Verif/Dataflow/ValueProps.lean): The full property fails: joining one function loaded with two different argument lists keeps the first and reports no change, so that the result does not describe the second, and join is not commutative.

### C17

* `C17_function_args_refuted` (Verif/Dataflow/ValueProps.lean): And for one function loaded with different arguments: the meet is not below the second.
* `C17_length_mismatch_refuted` (Verif/Dataflow/ValueProps.lean): The full property fails for values of different types: if some common tag has rows of different lengths, the meet is ⊥, although both describe a value with another tag.

### C18

* `C18_meet_flag_refuted` (Verif/Dataflow/ValueProps.lean): `meet_mut` also returns true if nothing changed, when the other value has tags this one does not have.

### C19

* `C19_cmp_order_refuted` (Verif/Dataflow/ValueProps.lean): The outcome depends on the order in which the hash map is iterated: the same two values are "less" in one order and "greater" in the other.
* `C19_cmp_refuted` (Verif/Dataflow/ValueProps.lean): The comparison claims more than the lattice order: a sum with tag 1 only is "less" than one with tag 0 only, and of two rows the first difference decides.

### C20

* `C20_dead_parent_refuted` (Verif/Graph/Props.lean): `add_node_with_parent` accepts a parent that is not in the graph (the documentation says it panics). The new node does not reach the module root.
* `C20_module_root_refuted` (Verif/Graph/Props.lean): `remove_node` accepts the module root (the documentation says it panics) whenever the entrypoint is another node. After that the module root is not live.
* `C20_orphan_refuted` (Verif/Graph/Props.lean): Removing a node alone leaves its children without parent, not reaching the module root.

### C21

* `C21_insert_range_refuted` (Verif/Graph/Props.lean): `insert_ports` beyond the last port returns a range that is not the range of the new ports.

### C24

* `C24_metadata_refuted` (Verif/Graph/Canon.lean): Metadata does not move with its node. The node at index 3 is moved to index 1, its metadata stays at index 3, where another node is now.
* `C24_rekey_refuted` (Verif/Graph/Canon.lean): "the rekey function is called for each moved node with the old and new indices" does not hold. With the nodes in the order 0, 3, 1, 2 it is called with (3, 1) and (3, 2): node 1, which moves to 2, is reported as 3, and node 2, which moves to 3, is not reported.

### C25

* `C25_empty_panics` (Verif/Graph/SerializeOps.lean): Reading a file without nodes panics.
* `C25_extra_port_refuted` (Verif/Graph/SerializeOps.lean): A node with more ports than its operation (made by `add_ports`; `validate` would reject it) is written without complaint, and the link of the extra port is read back as a link of the order port.
* `C25_read_panics` (Verif/Graph/SerializeOps.lean): If the operation has no order port, what was written cannot be read: reading panics instead of returning an error.
* `C25_unknown_parent_accepted` (Verif/Graph/SerializeOps.lean): A file in which a node names a parent that does not exist is accepted.
* `C25_write_panics` (Verif/Graph/SerializeOps.lean): Writing a Hugr with a node that does not reach the module root panics, although the conversion can return an error.

### C26

* `C26_reuse_refuted` (Verif/Graph/Props.lean): A node created at the index of a removed node has the metadata of the removed node.

### C27

* `C27_is_visible_refuted` (Verif/Scope/SymbolProps.lean): (`is_visible`) After `foo` is shadowed, the node that `foo` resolves to is reported as not visible.

### C34

* `C34_float_refuted` (Verif/Text/Props.lean): A float that Rust prints without a decimal point, such as `1e16`, is read back as a number and a symbol.
* `C34_fn_name_panics` (Verif/Text/Props.lean): `fn` is a symbol name, but reading an application of it to one argument panics.
* `C34_func_unparsable` (Verif/Text/Props.lean): A function, printed as `(fn (dfg ...))`, cannot be read back at all, whatever is in it: the words for the kinds of regions are reserved, and `term_const_func` wants a term.
* `C34_nat_panics` (Verif/Text/Props.lean): A number of 2^64 or more panics instead of being an error.
* `C34_trailing_ignored` (Verif/Text/Props.lean): What follows the term is ignored, so text that is not a term is accepted.
* `C34_tuple_name_refuted` (Verif/Text/Props.lean): `tuples` is a symbol name, but an application of it is read as a tuple with `s` in it.
* `C34_underscore_refuted` (Verif/Text/Props.lean): The symbol `_` is printed like the wildcard.
* `C34_var_space_refuted` (Verif/Text/Props.lean): White space after the question mark becomes part of the name.

### C35

* `C35_given_node_refuted` (Verif/Passes/DeadCodeProps.lean): A node given to the pass can lose the graph it is in. Here node 7 is given and kept, but it has no parent any more: the result is not a tree.
* `C35_indirect_call_removed` (Verif/Passes/DeadCodeProps.lean): The default callback is documented as conservative and keeps all calls, but indirect calls, which need not terminate either, are removed if their results are not used.

### C36

* `C36_missing_node_panics` (Verif/Passes/DeadFuncsProps.lean): A given node that is not in the Hugr makes the pass panic; it is not reported as an invalid entry point.
* `C36_nested_entrypoint_refuted` (Verif/Passes/DeadFuncsProps.lean): If the entrypoint is a graph inside a function, this function is kept but the functions it calls outside of the entrypoint are not: here the call 8 in `main` is left without a function to call.

### C37

* `C37_rank_refuted` (Verif/Passes/ForceOrderProps.lean): The documentation says that a node of lower rank is ordered before a node of greater rank if there is no path from the latter to the former. This fails: 5 has a lower rank than 6 and does not depend on it, but 6 comes first.
* `C37_rank_unsatisfiable` (Verif/Passes/ForceOrderProps.lean): No order at all can do what the documentation says. In this graph every order that respects the edge and puts nodes of lower rank first unless there is a path is contradictory: 4 must come before 5, 5 before 6 and 6 before 4.

### C38

* `C38_exit_inside_refuted` (Verif/Passes/RegionBlocksProps.lean): The target of the exit edge can be in the region, so that the edge does not leave it.
* `C38_missing_exit_refuted` (Verif/Passes/RegionBlocksProps.lean): An exit edge that does not exist is not reported if its source is not in the region: here 7 is not a block at all.
* `C38_side_entry_refuted` (Verif/Passes/RegionBlocksProps.lean): A block other than the first can be entered from outside: here the edge from 1 to 3 leads into the region of 2.

### C39

* `C39_failed_addition_refuted` (Verif/Persistent/Findings.lean): When `try_add_commit` fails, commits can have been added that conflict with the history: the ancestors are visited in an order in which a child can come before its parent, and the conflict is noticed at the parent. The persistent HUGR is then not a history, and `is_valid` rejects it.
* `C39_from_commit_panics` (Verif/Persistent/Findings.lean): The ancestors of a commit need not be compatible with each other: `Commit::try_new` accepts a commit on top of the conflicting commits 1 and 2, and `from_commit` panics on it.
* `C39_order_refuted` (Verif/Persistent/Findings.lean): The ancestors are not listed in reverse topological order, as the documentation of `get_ancestors_while` says: the base comes before its child 2.
* `C39_unknown_parent_refuted` (Verif/Persistent/Findings.lean): `try_add_replacement` does not return `UnknownParent` when a parent is missing from the persistent HUGR but exists in the state space: it adds the parent.

### C42

* `C42_entrypoint_child_panics` (Verif/Graph/LinkingTop.lean): `insert_link_hugr_by_node` panics although the directives are accepted, if the entrypoint is a child of a node for which an existing one is used: it removes the children of that node, but the entrypoint cannot be removed. `insert_link_view_by_node` does it.
* `C42_missing_target_panics` (Verif/Graph/LinkingTop.lean): The nodes of the host are not checked. To use a node that is not there panics after the host has been changed.
* `C42_nested_refuted` (Verif/Graph/LinkingTop.lean): If a replaced node is inside another one, the order in which the map is iterated decides between success and a panic.
* `C42_parent_replaced_refuted` (Verif/Graph/LinkingTop.lean): If the parent is inside a replaced node, what has just been inserted is removed again, and yet the returned map has it.
* `C42_whole_module_panics` (Verif/Graph/LinkingTop.lean): `insert_link_hugr_by_node` panics whenever a parent is given and the entrypoint is the module root, although the directives are accepted: it moves the root below itself. `insert_link_view_by_node` inserts the same graph (`C42_link_view`).

### C43

* `C43_load_constant_refuted` (Verif/Ops/SubstProps.lean): `LoadConstant` ignores the substitution even when its type has variables.

### C45

* `C45_duplicate_refuted` (Verif/Graph/InsertProps.lean): When `insert_view_forest` refuses a node given twice, the nodes it had added by then stay in the host, without parent: the host is not a tree any more.
* `C45_no_parent_panics` (Verif/Graph/InsertProps.lean): "nodes which are not mentioned in `root_parents` and whose parent is not in `nodes` will have no parent": the call panics instead.
* `C45_stale_metadata_refuted` (Verif/Graph/InsertProps.lean): A node copied from a view that has no metadata shows the metadata of the removed node whose index it got.

### C46

* `C46_clause_name_refuted` (Verif/Text/ModuleProps.lean): Nodes with the operations `signaturex` and `metax` disappear from a region: the first is read as its signature, the second as metadata.
* `C46_import_name_refuted` (Verif/Text/ModuleProps.lean): `importx` is a symbol name, but a node with this operation is read as an import of `x`.
* `C46_module_display_refuted` (Verif/Text/ModuleProps.lean): A module, unlike a package, is printed without its header, so no printed module is read back.
* `C46_visibility_refuted` (Verif/Text/ModuleProps.lean): A symbol without visibility whose name starts with `public` is read as a public symbol with the rest of the name, or not at all if a dot follows.
* `C46_where_refuted` (Verif/Text/ModuleProps.lean): A symbol whose signature is `(where ?x)` is not read back: the signature is taken for a constraint.

### C47

* `C47_conditional_panics` (Verif/Validate/Findings.lean): A conditional with a child that is not a case makes validation panic, if the conditional has the lower index: the children are checked before their own parents are.
* `C47_constant_in_cfg_panics` (Verif/Validate/Findings.lean): A constant in a control-flow graph, which is allowed there, that is linked to one of the blocks makes validation panic: `validate_cfg_edge` expects blocks.
* `C47_invalid_tag_panics` (Verif/Validate/Findings.lean): A `Tag` operation whose tag is not one of its variants makes validation panic instead of being reported.
* `C47_one_child_panics` (Verif/Validate/Findings.lean): A dataflow graph or control-flow graph with only its first child makes validation panic: both children are taken without a check that there are two.
* `C47_two_functions_refuted` (Verif/Validate/Findings.lean): The specification (specification/hugr.md:161) asks for exactly one edge at every incoming port that is not a control-flow port. A call with two functions is accepted: `incoming_is_unique` covers values and constants but not functions.
* `C47_undeclared_variable_refuted` (Verif/Validate/Findings.lean): A call may use type variables that nobody declares, if the function does not use its parameter: `Call::validate` compares the instantiated type and does not look at the arguments.

### C48

* `C48_declared_call_refuted` (Verif/Dataflow/AnalysisFindings.lean): The outputs of a call of a function without a body (`FuncDecl`) stay `bottom`, as if it never returned. What depends on them is not analysed: here the input of the identity function is reported to be always true, although it is also called with the result of the declared function, which can be false.
* `C48_indirect_call_refuted` (Verif/Dataflow/AnalysisFindings.lean): If an indirect call may call one of several functions, the arguments are not passed to any of them: here the input of `f` is reported to be always false, although `f` is also chosen by `main` and then called with true.
* `C48_input_wire_refuted` (Verif/Dataflow/AnalysisFindings.lean): Nothing is reported for the outputs of the input node of a function that the analysis starts from: `read_out_wire` says that no value is ever there. (The values are put on the other ends of the links only.)
* `C48_inputs_ignored` (Verif/Dataflow/AnalysisFindings.lean): Values given for the inputs of the entrypoint with `prepopulate_inputs` are ignored if the entrypoint is a function: `run` looks for them at the function node, where they are not stored, and adds `top`. Given to `run` itself they are used. The documentation says that the two are equivalent.
* `C48_schedule_refuted` (Verif/Dataflow/AnalysisFindings.lean): The results depend on the order in which the rules are evaluated: the rule that passes arguments to the target of an indirect call applies as long as only one target was found, and what it derived stays when a second one is found.

### C49

* `C49_inputs_confused_refuted` (Verif/Dataflow/ConstFoldFindings.lean): Two different constants that can not be hashed, given with `with_inputs` for the same input of two functions, are confused: the values of the inputs are all named after the same fresh node and the number of the input, not after the function. Here the two functions give one and two to the identity; the second then returns one.
* `C49_linear_refuted` (Verif/Dataflow/ConstFoldFindings.lean): Constant folding can make a valid Hugr invalid: a wire of a linear type whose value is a known constant, here an empty option of a qubit, is broken like any other, which leaves an output of linear type that nothing uses if its node is needed for another output.
* `C49_public_function_refuted` (Verif/Dataflow/ConstFoldFindings.lean): `constant_fold_pass` on a library changes its public functions: the values announced for the inputs of a function are only put on the wires to the consumers, not on the outputs of the input node, so a function that is called in the module, always with the same constant, is taken to be called with that constant only. Here the identity returns true afterwards, whatever it is given.

### C50

* `C50_block_entrypoint_refuted` (Verif/Dataflow/ConstFoldFindings.lean): Dead code elimination with a basic block as the entrypoint breaks the other blocks: a value that is only used in a block that the entrypoint dominates is taken to be dead. Here the boolean that the second block outputs is removed: the Hugr is not valid any more.

### C53

* `C53_deep_use_refuted` (Verif/Patch/InlineDfgFindings.lean): Finding** Inlining a DFG node can make a valid Hugr invalid: what is ordered before the DFG node is linked to every use of an input, even to one inside a nested graph, and an order link may not lead into a nested graph.
* `C53_lost_order_refuted` (Verif/Patch/InlineDfgFindings.lean): Finding** Inlining a DFG node can make a valid Hugr invalid: the order link to the DFG node goes only to the successors of its input, so that a use of an outer value deeper inside is left without the order link that validation asks for.
* `C53_outer_input_refuted` (Verif/Patch/InlineDfgFindings.lean): Finding** Inlining a DFG node can make a valid Hugr invalid: what is ordered after the input of the DFG node is linked from the source of every input, even from one in an outer graph, and an order link may not come from an outer graph.

### C54

* `C54_polymorphic_refuted` (Verif/Patch/InlineCallProps.lean): Finding** Inlining a call with type arguments makes a valid Hugr invalid: the DFG node that replaces the call gets the signature of the function without the type arguments, whereas the operations inside get them.
* `C54_recursive_panics` (Verif/Patch/InlineCallProps.lean): Finding** Inlining a call inside the function that it calls, of a valid Hugr, always panics: the copies become children of the call while what is inside the function is still being enumerated.

### C56

* `C56_polymorphic_refuted` (Verif/Patch/InlineFuncsProps.lean): Finding** The pass inlines calls with type arguments as well, and makes an invalid Hugr of a valid one.

### C57

* `C57_lost_order_refuted` (Verif/Patch/InlineDfgsProps.lean): Finding** The pass can make a valid Hugr invalid: an order link to a DFG node goes only to the successors of its input, so that a use of an outer value inside a conditional in the DFG node is left without the order link that validation asks for.

### C58

* `C58_outer_link_panics` (Verif/Patch/SimpleReplaceProps.lean): Finding** The entrypoint of a replacement may have links from outside: `try_new` accepts it, but only what is below the entrypoint is copied, and the rewrite panics on a link from outside to the output, after it has changed the host.

### C60

* `C60_order_links_refuted` (Verif/Patch/SimpleReplaceValidProps.lean): Finding** `SimpleReplacement::try_new` accepts a replacement with order links at its input (`create_simple_replacement` panics on it). The rewrite loses them; where they were needed, the result is invalid: here the value from 2 goes into the new node 13 and nothing says that 2 comes before it.
* `C60_outer_link_refuted` (Verif/Patch/SimpleReplaceValidProps.lean): Finding** A link into the entrypoint of the replacement from outside is dropped: `try_new` accepts the replacement and the rewrite succeeds, but a node is left without a value.
* `C60_repeated_output_refuted` (Verif/Patch/SimpleReplaceValidProps.lean): Finding** The outputs of a subgraph may name a copyable port twice (`set_outgoing_ports` allows it). The rewrite then links each of the two values to every use of that port: the result is invalid, both inputs of the node 3 have two links.

### C61

* `C61_blocks_accepted` (Verif/Patch/SiblingExamples.lean): Finding** Basic blocks are accepted as a subgraph if the boundary has only branches other than the first (`is_non_value_edge` looks only at the first control-flow port): then `signature` panics.
* `C61_input_output_accepted` (Verif/Patch/SiblingExamples.lean): Finding** The input and the output of a region are accepted as nodes of a subgraph. Replacing it leaves the region without them.
* `C61_isolated_node_refuted` (Verif/Patch/SiblingExamples.lean): Finding** `validate` rejects a subgraph that `try_from_nodes` made, if one of its nodes is not connected with its boundary.
* `C61_no_shared_parent_accepted` (Verif/Patch/SiblingExamples.lean): Finding** If no links cross the boundary, `try_from_nodes` accepts any nodes: here a function with nodes of the region of a DFG node inside of it.
* `C61_two_orders_panics` (Verif/Patch/SiblingExamples.lean): Finding** `try_from_nodes` panics if two order links go into one of the nodes, even if both come from the other nodes (`single_linked_output(..).unwrap()`).

### C62

* `C62_deep_nesting_refuted` (Verif/Types/JsonProps.lean): ** A tuple nested 42 deep can be read back from its text; nested 43 deep or deeper it is still written, but the text is refused: `serde_json` allows 127 levels of arrays and objects and each tuple takes three.
* `C62_empty_extension_accepted` (Verif/Types/JsonProps.lean): ** The name of the extension of a custom type is read without a check that it is a dotted list of identifiers: the empty name, for example, which `IdentList::new` refuses, is accepted.
* `C62_nonfinite_float_refuted` (Verif/Types/JsonProps.lean): ** A float argument that is NaN or infinite is a valid term and is written without an error, as `null`, and cannot be read back.

### C63

* `C63_alias_refuted` (Verif/Types/ExportProps.lean): An alias is exported as the application of a symbol and cannot be imported, unless there is a type with the name of the alias; then that type is imported.
* `C63_dotted_name_wrong` (Verif/Types/ExportProps.lean): A type whose name has a dot is exported under the name of another type.
* `C63_index_truncated` (Verif/Types/ExportProps.lean): Indices of variables are cut to 16 bits, so the 65537th parameter is exported as the first.
* `C63_nat_bound_refuted` (Verif/Types/ExportProps.lean): The upper bound of a number parameter is not exported. A valid function that is polymorphic in the width of an integer type is imported with a type that is not valid: the imported parameter is any number, and a width has to be below 7.
* `C63_nested_copyable_refuted` (Verif/Types/ExportProps.lean): That the types in a list have to be copyable is not exported. The parameter of a function on a row of copyable types is imported as a row of any types, so that the imported function accepts arguments that the exported function does not.
* `C63_self_reference_refuted` (Verif/Types/ExportProps.lean): When the type of a parameter mentions the parameter itself, the import does not end: however many uses are followed, there is no result. Nothing refuses such a symbol before.

### C64

* `C64_declared_type_ignored` (Verif/Consts/Props.lean): When the type written with a sum constant of tag 0 is not a sum type, it is silently ignored and the constant is read as a tuple.
* `C64_function_type_panics` (Verif/Consts/Props.lean): The enum variant for function constants is public and reading makes no check either, so there are function constants whose Hugr is not a monomorphic function. Asking for their type panics; `validate` and `Value::function` return an error instead.
* `C64_nested_ill_typed_accepted` (Verif/Consts/Props.lean): Reading a sum constant makes no check, and `validate` compares the parts of a constant with the reported types only, it does not look inside them. So a constant containing an ill-typed constant is read back and passes validation, here a tuple of one element. Validation refuses the inner constant on its own.

### C65

* `C65_eq_partial_wrong` (Verif/Consts/FoldProps.lean): `Eq` with a single known input `false` folds to `false`, although the result is `true` when the other, unknown input is also `false` (the folder reduces the known inputs, so that a single one is returned as it is). Constant folding calls it in this way: it passes the constants of those inputs that are known.
* `C65_external_symbol_panics` (Verif/Consts/FoldProps.lean): The folders of the list operations, and of `UnpackTuple`, assume that a constant of a list (or tuple) type is a list (or sum) constant. A valid external symbol may have any type. Folding an operation on such a constant panics.
* `C65_insert_type_wrong` (Verif/Consts/FoldProps.lean): When `insert` succeeds, the folded second output is the variant 1 of the sum `Sum([elem], [])` and not of the declared `Sum([elem], [unit])`: it has no value where the signature promises a unit, so it does not have the declared type. The list itself is right.
* `C65_length_port_wrong` (Verif/Consts/FoldProps.lean): The folder of `length` puts the length on output port 0. The signature has the list on port 0 and the length on port 1, so constant folding replaces the list by a `usize`.
* `C65_partial_tuple_wrong` (Verif/Consts/FoldProps.lean): `MakeTuple` does not check that all inputs are known. From the constants of some of its inputs it folds to the shorter tuple, a constant of another type. (The constant folding pass handles tuples itself and does not call this folder; `ExtensionOp::constant_fold` is public.)

### C66

* `C66_external_bool_wrong` (Verif/IntFold/ConvertProps.lean): `ifrombool` folds every constant that is not the value `true` to 0, also one that is not known to be `false` (a constant of boolean type such as an external symbol).
* `C66_trunc_saturates_wrong` (Verif/IntFold/ConvertProps.lean): A finite number that does not fit saturates instead of folding to the error value: every number at or below -1 truncates to an unsigned 0, and at 64 bits every number that is too large or too small becomes the nearest bound.

### C67

* `C67_untuple_generic_panics` (Verif/Patch/UntupleProps.lean): The pass panics on a valid Hugr in a function with type parameters if the tuple has values of such a type: the replacement is a function without type parameters, and validated alone.
* `C67_untuple_ordered_panics` (Verif/Patch/UntupleProps.lean): The pass panics on a valid Hugr if an order link goes to the node that makes the tuple.
* `C67_untuple_reused_panics` (Verif/Patch/UntupleProps.lean): The pass panics on a valid Hugr if a tuple is unpacked and used twice otherwise: it counts the links, but the subgraph has one output for them.
* `C67_untuple_unused_panics` (Verif/Patch/UntupleProps.lean): The pass panics on a valid Hugr if a value of an unpacked tuple is not used: the outputs of the replacement are not those of the subgraph.

### C68

* `C68_alias_constraints_removed` (Verif/Binary/Props.lean): The constraints of an alias are written but not read.
* `C68_wildcard_signature_panics` (Verif/Binary/Props.lean): A node whose signature is the id for no term, which is the wildcard, panics when it is written with overflow checks, and without them is read as a node without a signature.

### C69

* `C69_float_sign_wrong` (Verif/Resolve/Props.lean): Terms are shared if they are equal, and `0.0` and `-0.0` are equal. So a module with the two literals `0.0` and `-0.0` comes back from the tables with `0.0` twice: the sign of the second is lost.
* `C69_root_ignored` (Verif/Resolve/Props.lean): The kind, the ports and the signature of the root of a module have no effect on the result of the resolution, and are not checked: whatever they are, the root of the result is a module region without ports and signature.
* `C69_view_panics` (Verif/Resolve/Props.lean): The tables of a module can be read from a file and are not checked. With a variable whose index is out of range, the view indexes the parameters of a symbol out of range: it panics rather than to give an error.
* `C69_view_terminates_refuted` (Verif/Resolve/Props.lean): If the term of a table is a list with itself as an item then the view never comes to an end: however many nested calls are allowed, more are needed, and the real code overflows the stack.

### C70

* `C70_dfg_add_input_accepted` (Verif/Builder/Props.lean): `add_input` on the builder of a nested graph (`DFG`) changes the operation of the graph, and gives the node no further port: what is built is not valid.
* `C70_wire_case_panics` (Verif/Builder/WireProps.lean): A copyable value of one case of a conditional is used in another case: this panics.
* `C70_wire_next_accepted` (Verif/Builder/WireProps.lean): A copyable value from inside one nested graph is used inside another, next to it. The wire is connected, and so is an order from inside the first to the second. No valid Hugr has such links: this is an error that is not reported.

### C71

* `C71_variable_kind_ignored` (Verif/Types/TransformProps.lean): A variable whose declared kind names a type to be replaced keeps that kind: the declared kinds of variables are not transformed, so `C71_none_left` does not look at them.

### C73

* `C73_identity_unchanged_refuted` (Verif/Patch/IdentityProps.lean): `IdentityInsertion` says that it leaves the Hugr as it is on failure, insert_identity.rs:80, but when it finds that the parent is no dataflow graph it has already cut the edge, lines 96-103.
* `C73_remove_load_panics` (Verif/Patch/RemoveProps.lean): `RemoveLoadConstant` panics on a valid Hugr if an order edge leads to the node, since it asks for the only source of an edge to the node, consts.rs:66-70.

### C74

* `C74_constant_lost_refuted` (Verif/Patch/CfgToDfgProps.lean): In a valid Hugr, when the entry block loads a constant of the control-flow graph twice, then what `normalize_cfg` gives is not valid: the constant is removed with the blocks, normalize_cfgs.rs:207-210.
* `C74_merge_constant_panics` (Verif/Patch/CfgToDfgProps.lean): In a valid Hugr, a control-flow graph with a constant that is loaded once makes `merge_basic_blocks` panic: it takes the constant and the operation that loads it for basic blocks, normalize_cfgs.rs:41-49 and 346-347.

### C75

* `C75_entrypoint_panics` (Verif/Patch/OutlineProps.lean): In a valid Hugr, when the block at which the blocks are entered is the entrypoint, then `OutlineCfg` panics, after it has changed the Hugr: the entrypoint cannot be moved, outline_cfg.rs:189 and hugrmut.rs.
* `C75_exit_block_accepted` (Verif/Patch/OutlineProps.lean): In a valid Hugr, when the exit of the control-flow graph is among the blocks to move, it is moved too, and the result is not valid: the control-flow graph has no exit.
* `C75_unreachable_exit_refuted` (Verif/Patch/OutlineProps.lean): In a valid Hugr, when control cannot get to the block that leads out of the blocks to move, the result can be invalid, although no value of these blocks is used outside: the new block leads on, and a block after it uses values of a block that now can be passed by.
* `C75_value_used_outside_refuted` (Verif/Patch/OutlineProps.lean): In a valid Hugr, when a block that is not moved uses a value of a block that is moved, then the result is not valid: the value comes from inside of the new block.

### C76

* `C76_entry_order_wrong` (Verif/Patch/MoveOutFindings.lean): When the entry block is moved out, and another block uses a value from outside the control-flow graph, then the result is not valid: normalize_cfgs.rs:250-255 moves the order that the value comes before the control-flow graph to the entry block.
* `C76_entry_removed` (Verif/Patch/MoveOutFindings.lean): When the entry block is the only block before the exit and an unreachable block goes back to it, then the entry block becomes the exit, and the control-flow graph has no entry block: normalize_cfgs.rs:277-308 does not look whether the block before the exit is the entry block.
* `C76_inner_wrong` (Verif/Patch/MoveOutFindings.lean): When something inside a node of the last block uses a value of another block, then the result is not valid: normalize_cfgs.rs:279 looks only at the children of the block.
* `C76_order_wrong` (Verif/Patch/MoveOutFindings.lean): When something in the last block uses a value from outside the control-flow graph, then the result is not valid: normalize_cfgs.rs:278-283 ignores such links, but the value must come before the new dataflow graph, and no order says so.
* `C76_results_removed` (Verif/Patch/MoveOutFindings.lean): When the last block takes at least two values less than the control-flow graph gives, then the last results of the control-flow graph are not passed on any more: normalize_cfgs.rs:294-298 removes the ports before :322-328 moves what they are linked to.

### C77

* `C77_absent_port_refuted` (Verif/Patch/ReplacementProps.lean): A control-flow edge from a port that the block does not have is accepted: the kind asked for at replace.rs:112-114 is also given for ports that do not exist.
* `C77_listed_twice_panics` (Verif/Patch/ReplacementProps.lean): When a node is listed twice for removal, the check panics in debug builds: the assertion at replace.rs:229 does not fail only if the hierarchy is not a tree, as the comment says.
* `C77_merge_with_itself_panics` (Verif/Patch/ReplacementProps.lean): In a valid Hugr where an unreachable block goes only to itself, `merge_basic_blocks` merges this block with itself. The replacement for this removes and adopts the block twice (normalize_cfgs.rs:411-413), which is never accepted, also not by the part of the check that applying it repeats (replace.rs:341-345), and line 56 unwraps the result.

### C78

* `C78_absent_port_panics` (Verif/Patch/ReplaceApplyProps.lean): A control-flow edge from a port that does not exist is accepted, and applying the replacement panics.
* `C78_adopter_outside_panics` (Verif/Patch/ReplaceApplyProps.lean): A node of the replacement that is not below its root may adopt, says the check, but it is not copied, and applying the replacement panics.
* `C78_entrypoint_panics` (Verif/Patch/ReplaceApplyProps.lean): A replacement that removes the entrypoint is accepted, and applying it panics.
* `C78_nothing_adopted_panics` (Verif/Patch/ReplaceApplyProps.lean): A replacement that adopts a node without children is accepted, and applying it panics in debug builds.
* `C78_same_target_refuted` (Verif/Patch/ReplaceApplyProps.lean): Two edges into the same port of a node that stays are accepted. The second one then finds the first in the place of the edge it is to replace, and applying the replacement fails half way.
* `C78_source_outside_refuted` (Verif/Patch/ReplaceApplyProps.lean): An edge from a node of the replacement that is not below its root is accepted, but this node is not copied, and applying the replacement fails half way.

Seen while reading, not stated as theorems: `remove_subtree` of an ancestor of the entrypoint panics
only after part of the subtree is gone; the documentation of `layout_variants` says it panics if there
are no variants, which it does not; `IdentList` can be deserialised without validation; `ConstInt`
can be deserialised with a value out of range; the `Hash` of a partial sum depends on the iteration
order of a hash map; aliases (`AliasDefn`) are never checked by validation.

## Axioms of each theorem

As printed by `#print axioms` for the theorems of `MANIFEST.json`.

### none

`IntFold.C15_log_width_truncated`

### propext

`Types.C01_contains_partial_order`, `Types.C01_union_is_least_upper_bound`, `Ops.OpTag.C09_is_superset_unfolds`, `Ops.OpTag.C09_none_below_all_refuted`, `Ops.C10_out_of_range_refuted`, `IntFold.C12_ports_ignored_refuted`, `IntFold.C13_min_panics`, `IntFold.C13_min_remainder_refuted`, `IntFold.C14_shift_refuted`, `IntFold.C15_compare_unsigned`, `IntFold.C15_iabs_panics`, `Dataflow.C16_function_args_refuted`, `Dataflow.C17_function_args_refuted`, `Dataflow.C18_meet_flag_refuted`, `Dataflow.C19_cmp_order_refuted`, `Dataflow.C19_cmp_refuted`, `Graph.C21_connect`, `Scope.C27_is_visible_refuted`, `Ident.C41_split_last`, `Types.C63_index_truncated`, `Consts.C64_declared_type_ignored`, `Consts.C64_function_type_panics`, `Consts.C65_external_symbol_panics`, `Consts.C65_list_fold_needs_all`, `Consts.C65_noop_and_nat`, `Resolve.C69_view_panics`, `Resolve.C69_view_terminates_refuted`

### propext, Quot.sound

`Types.C01_bound_is_copyability`, `Types.C01_constructors_keep_invariant`, `Types.C01_instantiated_bound`, `Types.C01_least_upper_bound`, `Types.C01_sum_bound`, `Types.C03_copyable_stays_copyable`, `Types.C03_list_concat_misjudged`, `Types.C03_list_of_lists_flattened`, `Types.C03_row_variable_argument_panics`, `Types.C04_tuple_kind_refuted`, `Types.C07_check_exact_partial`, `Types.C07_check_monotone`, `Types.C07_check_terms_monotone`, `Types.C07_supertype_reflexive_partial`, `Types.C07_supertype_reflexive_refuted`, `Types.C07_supertype_transitive`, `Types.C08_closed_results_are_plain`, `Types.C08_decompose_rebuild`, `Types.C08_iterators_flatten`, `Types.C08_new_list_denotes_concatenation`, `Types.C08_new_tuple_denotes_concatenation`, `Ops.OpTag.C09_is_superset_iff_contains`, `Ops.OpTag.C09_is_superset_partial_order`, `Ops.OpTag.C09_partial_cmp_agrees`, `Ops.C10_invalid_tag_panics`, `Ops.C10_other_port`, `Ops.C10_out_of_range_kind`, `Ops.C10_own_static_port`, `Ops.C10_port_count`, `Ops.C10_port_kind`, `Ops.C10_ranges`, `Ops.C10_static_port`, `IntFold.C14_shift_panics`, `IntFold.C15_narrow_u_refuted`, `Dataflow.C16_describes_mono`, `Dataflow.C16_order`, `Dataflow.C17_length_mismatch_refuted`, `Graph.C20_dead_parent_refuted`, `Graph.C20_module_root_refuted`, `Graph.C20_orphan_refuted`, `Graph.C21_add_ports`, `Graph.C21_disconnect`, `Graph.C21_insert_range_refuted`, `Graph.C21_set_num_ports`, `Graph.C24_metadata_refuted`, `Graph.C24_rekey_refuted`, `Graph.C25_empty_panics`, `Graph.C25_extra_port_refuted`, `Graph.C25_ops_law`, `Graph.C25_read_panics`, `Graph.C25_unknown_parent_accepted`, `Graph.C25_write_panics`, `Graph.C26_reuse_refuted`, `Scope.C27_is_visible_sound_partial`, `Scope.C27_is_visible_unshadowed_partial`, `Scope.C27_symbol_table_refines_stack_partial`, `Scope.C28_link_table_refines_stack`, `Scope.C29_var_table_refines_stack`, `Registry.C30_registry_keeps_newest`, `Registry.C30_registry_new`, `Registry.C31_validate_exact`, `Registry.C31_validate_never_stale`, `Text.C33_unicode_escape`, `Text.C34_flat_fixed`, `Passes.C35_given_node_refuted`, `Passes.C35_indirect_call_removed`, `Passes.C36_error`, `Passes.C36_missing_node_panics`, `Passes.C36_nested_entrypoint_refuted`, `Passes.C36_rejects`, `Passes.C37_rank_refuted`, `Passes.C37_rank_unsatisfiable`, `Passes.C38_exit_inside_refuted`, `Passes.C38_missing_exit_refuted`, `Passes.C38_side_entry_refuted`, `Persistent.C39_failed_addition_refuted`, `Persistent.C39_from_commit_panics`, `Persistent.C39_unknown_parent_refuted`, `Ident.C41_components_unique`, `Ops.C43_branch_rows`, `Ops.C43_load_constant_refuted`, `Dataflow.C44_supports_tag`, `Dataflow.C44_variant_values`, `Dataflow.C44_variant_values_sound`, `Graph.C45_no_parent_panics`, `Dataflow.C48_inputs_ignored`, `Patch.C54_refused`, `Patch.C58_refused`, `Patch.C58_try_new`, `Patch.C61_no_shared_parent_accepted`, `Consts.C64_failed_hash_leaves_hasher`, `Consts.C64_hashable_iff`, `Consts.C64_tuple_unpacks`, `IntFold.C66_bool_int_width`, `IntFold.C66_trunc_non_finite`, `Resolve.C69_float_sign_wrong`, `Resolve.C69_root_ignored`, `Builder.C70_dfg_add_input_accepted`, `Types.C71_again`, `Types.C71_changed`, `Types.C71_no_panic`, `Types.C71_none_left`, `Types.C71_result`, `Types.C71_succeeds`, `Types.C71_unchanged`, `Types.C71_valid`, `Types.C71_variable_kind_ignored`, `Patch.C72_refused`, `Patch.C73_identity_unchanged_refuted`, `Patch.C73_insert_identity_refused`, `Patch.C74_cfg_to_dfg_only`, `Patch.C74_tuple_types`, `Patch.C76_entry_order_sources_partial`

### propext, Classical.choice, Quot.sound

`Types.C02_equal_types_hash_alike`, `Types.C02_equality_is_equivalence`, `Types.C02_equality_of_built_types`, `Types.C02_new_sum_rows`, `Types.C02_unit_sum_interchangeable`, `Types.C02_views_follow_rows`, `Types.C03_subst_keeps_kind_partial`, `Types.C03_subst_row_valid_partial`, `Types.C03_subst_valid_partial`, `Types.C04_identity_term_partial`, `Types.C04_identity_type_partial`, `Types.C04_row_variable_refuted`, `Types.C05_compose_partial`, `Types.C06_error_iff_mismatch`, `Types.C06_instantiate_closed_partial`, `Types.C06_instantiate_panics`, `Types.C06_instantiate_partial`, `IntFold.C11_new_s`, `IntFold.C11_new_u`, `IntFold.C11_reencode`, `IntFold.C11_two_complement`, `IntFold.C12_iadd`, `IntFold.C12_imul`, `IntFold.C12_ineg`, `IntFold.C12_ipow_partial`, `IntFold.C12_ipow_refuted`, `IntFold.C12_ipow_up_to_32_bits_partial`, `IntFold.C12_isub`, `IntFold.C12_signed_reading`, `IntFold.C13_checked_s_partial`, `IntFold.C13_checked_u_partial`, `IntFold.C13_idiv_s_partial`, `IntFold.C13_idiv_u`, `IntFold.C13_idivmod_s_partial`, `IntFold.C13_idivmod_u`, `IntFold.C13_min_always_wrong`, `IntFold.C13_quotient_release`, `IntFold.C13_zero_checked`, `IntFold.C13_zero_unchecked`, `IntFold.C14_and_or_xor`, `IntFold.C14_inot`, `IntFold.C14_irotl_partial`, `IntFold.C14_irotr_partial`, `IntFold.C14_ishl_partial`, `IntFold.C14_ishr_partial`, `IntFold.C14_rotate_panics`, `IntFold.C14_shift_out_partial`, `IntFold.C15_checked_types_refuted`, `IntFold.C15_compare_signed`, `IntFold.C15_conversion_used`, `IntFold.C15_declared_types_partial`, `IntFold.C15_equality`, `IntFold.C15_extrema_signed`, `IntFold.C15_extrema_unsigned`, `IntFold.C15_iabs_partial`, `IntFold.C15_inarrow_s_partial`, `IntFold.C15_inarrow_u_partial`, `IntFold.C15_iwiden_s`, `IntFold.C15_iwiden_u`, `IntFold.C15_narrow_s_refuted`, `IntFold.C15_one_input_used`, `IntFold.C15_sign_cast_panics`, `IntFold.C15_sign_casts_partial`, `IntFold.C15_two_inputs_used`, `IntFold.C15_widen_declines`, `Dataflow.C16_invariant_kept`, `Dataflow.C16_join_assoc_partial`, `Dataflow.C16_join_comm_partial`, `Dataflow.C16_join_describes_partial`, `Dataflow.C16_join_idempotent`, `Dataflow.C16_join_least`, `Dataflow.C16_join_lub_partial`, `Dataflow.C17_absorption_partial`, `Dataflow.C17_invariant_kept`, `Dataflow.C17_meet_describes_partial`, `Dataflow.C17_meet_glb_partial`, `Dataflow.C17_meet_le_left`, `Dataflow.C18_join_flag`, `Dataflow.C18_meet_flag_partial`, `Dataflow.C19_cmp_complete_partial`, `Dataflow.C19_cmp_equal`, `Dataflow.C19_unchanged_iff_le`, `Graph.C20_add_node`, `Graph.C20_add_node_after`, `Graph.C20_add_node_before`, `Graph.C20_move_after`, `Graph.C20_move_before`, `Graph.C20_set_parent`, `Graph.C20_tree_partial`, `Graph.C21_insert_ports`, `Graph.C21_symmetric`, `Graph.C22_remove_subtree`, `Graph.C23_insert_forest`, `Graph.C23_insert_hugr`, `Graph.C24_canonicalize_partial`, `Graph.C25_history_round_trip`, `Graph.C25_round_trip`, `Graph.C26_metadata_partial`, `Graph.C26_set`, `Envelope.C32_header_read_exact`, `Envelope.C32_header_round_trip`, `Envelope.C32_header_unique`, `Text.C33_one_line`, `Text.C33_string_round_trip`, `Text.C34_alphabet`, `Text.C34_float_refuted`, `Text.C34_fn_name_panics`, `Text.C34_fuel_enough`, `Text.C34_func_unparsable`, `Text.C34_keywords`, `Text.C34_layout_exists`, `Text.C34_nat_panics`, `Text.C34_print_injective`, `Text.C34_progress`, `Text.C34_round_trip`, `Text.C34_trailing_ignored`, `Text.C34_tuple_name_refuted`, `Text.C34_underscore_refuted`, `Text.C34_var_space_refuted`, `Passes.C35_ancestors_partial`, `Passes.C35_default_keeps`, `Passes.C35_default_removes`, `Passes.C35_dependencies`, `Passes.C35_outcome`, `Passes.C35_removes_exactly`, `Passes.C36_links_kept_partial`, `Passes.C36_removes_exactly`, `Patch.C36_valid_removes_exactly`, `Passes.C37_force_order`, `Passes.C37_order_unique`, `Patch.C37_valid_results`, `Passes.C38_region_blocks`, `Passes.C38_single_exit`, `Persistent.C39_find_conflicting`, `Persistent.C39_histories`, `Persistent.C39_is_valid`, `Persistent.C39_node_status`, `Persistent.C39_order_refuted`, `Persistent.C39_replacement_iff`, `Persistent.C39_store`, `Persistent.C39_try_add_commits`, `Persistent.C39_try_add_replacement`, `Persistent.C39_try_new`, `SumLayout.C40_layout`, `Ident.C41_new_iff`, `Graph.C42_entrypoint_child_panics`, `Graph.C42_link_hugr_partial`, `Graph.C42_link_view`, `Graph.C42_missing_target_panics`, `Graph.C42_nested_refuted`, `Graph.C42_parent_replaced_refuted`, `Graph.C42_whole_module_panics`, `Ops.C43_call_assert_partial`, `Ops.C43_closed_type_unchanged_partial`, `Ops.C43_inner_signature`, `Ops.C43_ports_kept`, `Ops.C43_signature`, `Dataflow.C44_contains_bottom`, `Dataflow.C44_try_into_concrete`, `Graph.C45_duplicate_refuted`, `Graph.C45_insert_from_view_partial`, `Graph.C45_insert_view_forest_partial`, `Graph.C45_stale_metadata_refuted`, `Text.C46_clause_name_refuted`, `Text.C46_fuel_enough`, `Text.C46_import_name_refuted`, `Text.C46_layout_exists`, `Text.C46_module_display_refuted`, `Text.C46_node_round_trip`, `Text.C46_param_round_trip`, `Text.C46_print_injective`, `Text.C46_region_round_trip`, `Text.C46_round_trip`, `Text.C46_symbol_round_trip`, `Text.C46_trailing_rejected`, `Text.C46_visibility_refuted`, `Text.C46_where_refuted`, `Validate.C47_conditional_panics`, `Validate.C47_constant_in_cfg_panics`, `Validate.C47_error_true`, `Validate.C47_invalid_tag_panics`, `Validate.C47_one_child_panics`, `Validate.C47_two_functions_refuted`, `Validate.C47_undeclared_variable_refuted`, `Validate.C47_validate_iff_partial`, `Dataflow.C48_block_reachable_partial`, `Dataflow.C48_case_reachable_partial`, `Dataflow.C48_declared_call_refuted`, `Dataflow.C48_indirect_call_refuted`, `Dataflow.C48_input_wire_refuted`, `Dataflow.C48_inputs_partial`, `Dataflow.C48_loop_partial`, `Dataflow.C48_outputs_partial`, `Dataflow.C48_schedule_refuted`, `Dataflow.C49_constants_partial`, `Dataflow.C49_inputs_confused_refuted`, `Dataflow.C49_linear_refuted`, `Dataflow.C49_preserves_partial`, `Dataflow.C49_public_function_refuted`, `Dataflow.C49_rewired`, `Dataflow.C50_block_entrypoint_refuted`, `Dataflow.C50_constant_fold_partial`, `Dataflow.C50_dead_code_partial`, `Patch.C51_inline`, `Patch.C51_refused`, `Patch.C52_inline_returns`, `Patch.C53_deep_use_refuted`, `Patch.C53_local_valid_partial`, `Patch.C53_lost_order_refuted`, `Patch.C53_outer_input_refuted`, `Patch.C53_valid_iff_partial`, `Patch.C54_inline`, `Patch.C54_inline_valid_partial`, `Patch.C54_polymorphic_refuted`, `Patch.C54_recursive_panics`, `Patch.C55_inline_returns_partial`, `Patch.C56_inline_acyclic_partial`, `Patch.C56_polymorphic_refuted`, `Patch.C57_inline_dfgs_partial`, `Patch.C57_lost_order_refuted`, `Patch.C58_outer_link_panics`, `Patch.C58_replace`, `Patch.C59_replace_allows`, `Patch.C59_replace_respects`, `Patch.C59_replace_results`, `Patch.C60_order_links_refuted`, `Patch.C60_outer_link_refuted`, `Patch.C60_repeated_output_refuted`, `Patch.C60_replace_valid`, `Patch.C61_blocks_accepted`, `Patch.C61_from_nodes`, `Patch.C61_from_nodes_replace`, `Patch.C61_input_output_accepted`, `Patch.C61_isolated_node_refuted`, `Patch.C61_try_new`, `Patch.C61_two_orders_panics`, `Patch.C61_validate`, `Patch.C61_validate_subgraph`, `Types.C62_bytes_canonical`, `Types.C62_deep_nesting_refuted`, `Types.C62_empty_extension_accepted`, `Types.C62_injective`, `Types.C62_legacy_bound`, `Types.C62_member_order`, `Types.C62_nonfinite_float_refuted`, `Types.C62_read_wellformed`, `Types.C62_row_variable`, `Types.C62_signature_roundtrip`, `Types.C62_term_roundtrip`, `Types.C62_text_roundtrip`, `Types.C62_type_roundtrip`, `Types.C63_alias_refuted`, `Types.C63_dotted_name_wrong`, `Types.C63_imported_lossless`, `Types.C63_injective`, `Types.C63_nat_bound_refuted`, `Types.C63_nested_copyable_refuted`, `Types.C63_second_roundtrip`, `Types.C63_self_reference_refuted`, `Types.C63_signature_roundtrip`, `Types.C63_term_roundtrip`, `Consts.C64_built_well_typed`, `Consts.C64_constructors_total`, `Consts.C64_equal_values_equal_types`, `Consts.C64_equal_values_hash_alike`, `Consts.C64_nested_ill_typed_accepted`, `Consts.C64_sum_accepts_exactly`, `Consts.C64_sum_errors`, `Consts.C64_sum_reads_back`, `Consts.C64_type_is_reported`, `Consts.C64_validate_exact`, `Consts.C65_eq_partial_wrong`, `Consts.C65_insert_type_wrong`, `Consts.C65_length_port_wrong`, `Consts.C65_list_fold_sound_partial`, `Consts.C65_logic_fold_complete`, `Consts.C65_logic_fold_sound_partial`, `Consts.C65_partial_tuple_wrong`, `Consts.C65_tuple_fold_roundtrip`, `IntFold.C66_bool_int`, `IntFold.C66_convert_s`, `IntFold.C66_convert_trunc`, `IntFold.C66_convert_u`, `IntFold.C66_external_bool_wrong`, `IntFold.C66_folds_only`, `IntFold.C66_strings`, `IntFold.C66_trunc_out_of_range_partial`, `IntFold.C66_trunc_s`, `IntFold.C66_trunc_saturates_wrong`, `IntFold.C66_trunc_u`, `IntFold.C66_usize_int`, `Patch.C67_rewrites_apply_partial`, `Patch.C67_untuple_generic_panics`, `Patch.C67_untuple_ordered_panics`, `Patch.C67_untuple_partial`, `Patch.C67_untuple_reused_panics`, `Patch.C67_untuple_unused_panics`, `Binary.C68_alias_constraints_removed`, `Binary.C68_injective_partial`, `Binary.C68_read_again`, `Binary.C68_round_trip_partial`, `Binary.C68_version`, `Binary.C68_wildcard_signature_panics`, `Resolve.C69_resolve_represents`, `Resolve.C69_resolve_scoped`, `Resolve.C69_view_resolve`, `Resolve.C69_view_scoped`, `Builder.C70_add_later`, `Builder.C70_build_error`, `Builder.C70_build_iff`, `Builder.C70_build_nodes`, `Builder.C70_finish_iff`, `Builder.C70_finish_returns`, `Builder.C70_wire_block`, `Builder.C70_wire_case_panics`, `Builder.C70_wire_error`, `Builder.C70_wire_inside`, `Builder.C70_wire_local`, `Builder.C70_wire_next_accepted`, `Patch.C72_peel`, `Patch.C72_returns`, `Patch.C72_valid`, `Patch.C73_insert_identity`, `Patch.C73_remove_const`, `Patch.C73_remove_load_panics`, `Patch.C73_remove_load_partial`, `Patch.C73_remove_refused`, `Patch.C74_cfg_to_dfg_partial`, `Patch.C74_cfg_to_dfg_returns_partial`, `Patch.C74_cfg_to_dfg_valid_partial`, `Patch.C74_constant_lost_refuted`, `Patch.C74_merge_constant_panics`, `Patch.C75_entrypoint_panics`, `Patch.C75_exit_block_accepted`, `Patch.C75_outlined_partial`, `Patch.C75_refused_partial`, `Patch.C75_returns_partial`, `Patch.C75_unreachable_exit_refuted`, `Patch.C75_valid_partial`, `Patch.C75_value_used_outside_refuted`, `Patch.C76_entry_links_partial`, `Patch.C76_entry_moved_partial`, `Patch.C76_entry_order_wrong`, `Patch.C76_entry_ordered_partial`, `Patch.C76_entry_removed`, `Patch.C76_entry_uses_found_partial`, `Patch.C76_exit_moved_partial`, `Patch.C76_exit_moved_returns_partial`, `Patch.C76_exit_moved_valid_partial`, `Patch.C76_inner_wrong`, `Patch.C76_order_wrong`, `Patch.C76_results_removed`, `Patch.C77_absent_port_refuted`, `Patch.C77_accepted_partial`, `Patch.C77_listed_twice_panics`, `Patch.C77_merge_with_itself_panics`, `Patch.C77_no_panic`, `Patch.C77_removed_nodes`, `Patch.C78_absent_port_panics`, `Patch.C78_adopter_outside_panics`, `Patch.C78_applied_partial`, `Patch.C78_entrypoint_panics`, `Patch.C78_nothing_adopted_panics`, `Patch.C78_same_target_refuted`, `Patch.C78_source_outside_refuted`, `Patch.C79_merge_blocks_partial`

